{"id": "C01", "title": "Operator soup is re-associated without losing, inventing or reordering anything", "statement": "When an expression written as a flat run of operands and user-defined operators is cooked successfully, reading the operators and operands of the resulting tree from left to right gives back exactly the run that was written.", "quantifier": "every finite run of operands and operators, every assignment of fixities (nullary, prefix, postfix, left/right infix) and precedences", "why_tests_cant": "Operator tables are user-defined and expressions are unbounded; tests only try a few precedence combinations.", "anchors": ["src/core/cook/shunt.rs: Shunter::shunt, shunt1, seat_op, apply_one, apply_two, clear_ops", "src/core/cook/fill.rs: fill_gaps"]}
{"id": "C02", "title": "Operator precedence and associativity are respected", "statement": "In the tree produced for an expression, an operator node is never a direct left (right) operand of an operator that binds tighter than it does, and operators of equal precedence associate in their declared direction.", "quantifier": "every well-formed run of operands and infix operators with arbitrary precedences and associativities", "why_tests_cant": "The set of precedence tables and expression shapes is infinite.", "anchors": ["src/core/cook/shunt.rs: seat_op", "src/core/cook/fixity.rs"]}
{"id": "C03", "title": "Cooking an expression never crashes and never silently drops a term", "statement": "Every run of operands and operators, after gap filling, either cooks to a single tree containing all of it or reports a compile error; the shunting loop terminates and cannot panic on an empty operand stack.", "quantifier": "every finite run of operands and operators", "why_tests_cant": "Malformed operator runs are unbounded in shape; the panic and silent-drop paths depend on stack contents.", "anchors": ["src/core/cook/shunt.rs: Shunter::shunt", "src/core/cook/fill.rs: fill_gaps, filler"]}
{"id": "C04", "title": "Gap filling inserts only juxtaposition operators and section placeholders", "statement": "Filling gaps in an expression keeps every written element in order, inserts a catenation operator exactly between two adjacent values and a fresh section placeholder exactly where an operator lacks an operand, and the result alternates operands and operators.", "quantifier": "every finite run of elements", "why_tests_cant": "Unbounded expression shapes.", "anchors": ["src/core/cook/fill.rs: fill_gaps, filler, bind_sides"]}
{"id": "C05", "title": "Closing a scope and opening it again is the identity on expressions", "statement": "Binding a set of names in an expression and later opening that scope with the same names gives back the original expression: no reference is captured by, or escapes from, the wrong binder at any nesting depth.", "quantifier": "every core expression, every list of distinct names, every nesting depth", "why_tests_cant": "Binder nesting and shadowing are unbounded.", "anchors": ["src/core/expr.rs: close_expr_vars, open_expr_vars, close_let_scope, open_let_scope_full"]}
{"id": "C06", "title": "Scoping operations keep expressions well scoped", "statement": "If every bound reference of an expression points at an enclosing binder slot, the same is true after binding free names, opening, shifting, substituting and rebodying.", "quantifier": "every core expression and every binder depth", "why_tests_cant": "Index errors only show for particular nestings.", "anchors": ["src/core/expr.rs: close_expr_vars, open_expr_vars, substs, rebody, merge_in", "src/core/transform/succ.rs: succ, pred"]}
{"id": "C07", "title": "Splitting a recursive binding group preserves what every name refers to", "statement": "When a group of mutually dependent bindings is split into nested groups, every binding is kept exactly once and every reference still resolves to the binding it referred to before.", "quantifier": "every let group and every dependency graph among its bindings", "why_tests_cant": "Dependency graphs are unbounded; wrong SCC order only shows up in particular cyclic shapes.", "anchors": ["src/core/dependency.rs: split_letrecs, tarjan_scc"]}
{"id": "C08", "title": "Strongly connected components are computed correctly", "statement": "The component computation partitions the bindings, puts two bindings in the same component exactly when each depends (transitively) on the other, and lists components in dependency order.", "quantifier": "every finite directed graph", "why_tests_cant": "Graph shapes are unbounded.", "anchors": ["src/core/dependency.rs: tarjan"]}
{"id": "C09", "title": "Flattening nested lets preserves what every name refers to", "statement": "Merging a chain of nested binding groups into one group leaves every reference pointing at the binding it pointed at before, including when an inner group re-uses an outer name.", "quantifier": "every chain of nested lets", "why_tests_cant": "Only particular shadowing patterns expose capture.", "anchors": ["src/core/reflatten.rs"]}
{"id": "C10", "title": "Removing dead bindings never removes or redirects a live reference", "statement": "Compressing away bindings that were eliminated leaves every remaining reference pointing to the same binding expression as before, and fails loudly rather than redirecting if a reference to an eliminated binding remains.", "quantifier": "every expression and every set of eliminated bindings", "why_tests_cant": "Index remapping across nested scopes has unbounded configurations.", "anchors": ["src/core/simplify/compress.rs", "src/core/simplify/prune.rs"]}
{"id": "C11", "title": "Live allocations never overlap", "statement": "At every moment of every program run, the memory of two live heap objects is disjoint and each lies inside its block, whatever the interleaving of allocations, collections and lazy sweeps.", "quantifier": "every history of allocations (of any sizes) and collections (with any surviving set)", "why_tests_cant": "Overlap needs a particular interleaving of sizes, survivors and block recycling.", "anchors": ["src/eval/memory/bump.rs: LineMap::find_hole, BumpBlock::{bump,recycle,mark_region}", "src/eval/memory/heap.rs: HeapState, Heap::try_allocate"]}
{"id": "C12", "title": "Allocation below the block size always succeeds", "statement": "A request smaller than a block never reports out-of-memory and never triggers the emergency sweep, whatever the fragmentation of the heap.", "quantifier": "every reachable heap state and every request size below the block size", "why_tests_cant": "Fragmentation patterns are unbounded.", "anchors": ["src/eval/memory/heap.rs: Heap::{find_space,try_allocate}, HeapState::{replace_head_targeted,find_best_recycled_block,lazy_sweep_next,replace_overflow}"]}
{"id": "C13", "title": "Garbage collection keeps exactly the reachable objects", "statement": "The mark phase terminates and marks an object if and only if it is reachable from the roots, for any object graph including cycles and sharing.", "quantifier": "every finite object graph, root set and mark state", "why_tests_cant": "Object graphs are unbounded and cyclic.", "anchors": ["src/eval/memory/collect.rs: collect_mark_in_place, CollectorHeapView::mark", "src/eval/memory/header.rs"]}
{"id": "C14", "title": "Evacuation preserves the object graph", "statement": "After an evacuating collection every root and every live object refers to the moved copy of what it referred to before: following any path of fields from the roots reads the same data before and after.", "quantifier": "every object graph, candidate block set, pin set and allocation failure pattern", "why_tests_cant": "Which objects move depends on fragmentation; graphs are unbounded.", "anchors": ["src/eval/memory/collect.rs: collect_with_evacuation, CollectorHeapView::{evacuate,forwarded_to}, try_evacuate"]}
{"id": "C15", "title": "Local variables read back the value they were bound to", "statement": "Looking up variable i in a chain of environment frames reads the i-th entry of the frames laid end to end, with remapped frames exposing the selected slots; updating a variable changes exactly that slot, and the update is seen by all frames sharing the storage and no others.", "quantifier": "every chain of frames, remap table and index", "why_tests_cant": "Frame chains and sharing patterns are unbounded.", "anchors": ["src/eval/machine/env.rs: EnvironmentFrame::{cell,get,update,new_remapped}"]}
{"id": "C16", "title": "Compiled bytecode means the program it was compiled from", "statement": "Decoding the instruction stream produced for a compiled program gives back that program (up to the documented normalisation), for every program within the format's limits.", "quantifier": "every STG program whose arities and counts fit the encoding", "why_tests_cant": "Programs are unbounded trees; offsets depend on total size.", "anchors": ["src/eval/bytecode/encode.rs", "src/eval/bytecode/predecode.rs", "src/eval/bytecode/opcode.rs"]}
{"id": "C17", "title": "Appending a program to a precompiled prelude equals compiling both together", "statement": "Encoding the prelude once and appending a user program gives byte-for-byte the same code, constant pool and entry points as encoding them together.", "quantifier": "every prelude and every user program", "why_tests_cant": "Depends on every offset and pool index in the image.", "anchors": ["src/eval/bytecode/encode.rs: encode, encode_prelude, encode_root_onto"]}
{"id": "C18", "title": "Closure descriptors round-trip", "statement": "The update flag, arity and source annotation packed in a closure descriptor are read back unchanged, and distinct descriptors have distinct packed words.", "quantifier": "every arity, annotation and flag", "why_tests_cant": "2^41 combinations.", "anchors": ["src/eval/memory/infotable.rs: InfoFlags"]}
{"id": "C19", "title": "Source locations are never confused", "statement": "A location handle always resolves to the position it was created for, no matter how many locations are added later; handles baked into a precompiled prelude and handles naming prelude slots never resolve to user source.", "quantifier": "every history of location-creating calls and every reserved foreign range", "why_tests_cant": "Aliasing only shows for particular counts of locations.", "anchors": ["src/common/sourcemap.rs: SourceMap::{add,merge,annotated,reserve_foreign_range,info_at}, Smid::global_slot"]}
{"id": "C20", "title": "Stack traces are abbreviated without losing information", "statement": "Expanding each run of an abbreviated trace as many times as stated reproduces the original trace exactly, and an abbreviation is never longer than the original.", "quantifier": "every finite trace", "why_tests_cant": "Traces are unbounded sequences.", "anchors": ["src/common/sourcemap.rs: compress_cycles"]}
{"id": "C21", "title": "Integer division and modulo obey the floor-division laws", "statement": "For all integers a and non-zero b, the quotient rounds toward minus infinity, a = b*q + r, and r has the sign of b with |r| < |b|; the only integer failure is the single unrepresentable quotient, and it is reported as an error.", "quantifier": "every pair of 64-bit integers", "why_tests_cant": "2^128 pairs.", "anchors": ["src/eval/stg/arith.rs: floor_div_i64, floor_mod_i64, Div, Mod, Quot, Rem"]}
{"id": "C22", "title": "Integer arithmetic never silently wraps", "statement": "Adding, subtracting, multiplying or raising integers either gives the exact mathematical result or reports a range error.", "quantifier": "every pair of 64-bit signed or unsigned integers", "why_tests_cant": "2^128 pairs.", "anchors": ["src/eval/stg/arith.rs: Add, Sub, Mul, Pow, checked_int_pow"]}
{"id": "C23", "title": "Number comparison is a total order consistent with equality", "statement": "For numbers, exactly one of <, = and > holds, the order is transitive, and equality agrees with it.", "quantifier": "all triples of numbers, integer or floating point", "why_tests_cant": "Infinite/2^192 triples; mixed representations.", "anchors": ["src/eval/stg/arith.rs: num_ord, ordered_cmp", "src/eval/stg/eq.rs: num_eq"]}
{"id": "C24", "title": "Random streams are deterministic and stay in range", "statement": "A random stream is a function of its seed; distinct states have distinct successors; a float draw lies in [0,1) and an integer draw below n lies in [0,n).", "quantifier": "every seed and every positive bound", "why_tests_cant": "2^64 states.", "anchors": ["src/eval/stg/prng.rs", "src/eval/stg/stream_prng.rs"]}
{"id": "C25", "title": "Structural equality is an equivalence relation", "statement": "The == operator on data is reflexive, symmetric and transitive.", "quantifier": "all data values: scalars, lists and blocks of any depth", "why_tests_cant": "Values are unbounded trees.", "anchors": ["src/eval/stg/eq.rs"]}
{"id": "C26", "title": "Block merge: right-hand values win and order is kept", "statement": "Merging blocks l and r gives a block whose keys are l's keys in order followed by r's new keys in order, with r's value wherever r has the key; merge is associative and the empty block is its identity.", "quantifier": "all blocks, including ones with repeated keys", "why_tests_cant": "Blocks are unbounded and keys arbitrary.", "anchors": ["src/eval/stg/block.rs: Merge, MergeWith, DeepMerge, LookupOr"]}
{"id": "C27", "title": "Looking up a key after merging finds the overriding value", "statement": "Looking up k in the merge of l and r finds r's value if r has k and l's otherwise; lookup with default never fails; missing keys are reported as errors by plain lookup.", "quantifier": "all blocks and keys", "why_tests_cant": "Unbounded.", "anchors": ["src/eval/stg/block.rs: LookupOr, Lookup, Merge"]}
{"id": "C28", "title": "Deep merge recurses only through blocks", "statement": "Deep merging agrees with shallow merging on keys, recurses where both values are blocks and otherwise takes the right-hand value; it is associative.", "quantifier": "all nested blocks", "why_tests_cant": "Unbounded nesting.", "anchors": ["src/eval/stg/block.rs: DeepMerge, MergeWith"]}
{"id": "C29", "title": "Prelude cache freshness is decided correctly", "statement": "The cached prelude is used only if it was built from the same wire-format version, prelude source and intrinsic table; any difference in these changes the bytes that are hashed.", "quantifier": "all versions, sources and intrinsic tables", "why_tests_cant": "Boundary-shifting collisions between the hashed fields cannot be enumerated.", "anchors": ["src/eval/stg/wire_format.rs: absorb, blob_source_hash, classify_blob, read_blob_source_hash"]}
{"id": "C30", "title": "Cache serialisation is deterministic", "statement": "Serialising a map gives the same bytes whatever the in-memory iteration order, and reading them back gives the same map.", "quantifier": "all finite maps and iteration orders", "why_tests_cant": "Hash iteration order is randomised per process.", "anchors": ["src/common/serde_sorted.rs"]}
{"id": "C31", "title": "Escape sequences in c-strings are decoded exactly", "statement": "Every string can be written with escapes and decodes back to itself; decoding never crashes, and rejects exactly malformed escapes and invalid code points.", "quantifier": "all strings", "why_tests_cant": "Infinite strings; 2^32 code points.", "anchors": ["src/core/desugar/escape.rs: process_escapes"]}
{"id": "C32", "title": "Command-line input descriptors are parsed predictably", "statement": "Parsing name=format@locator recovers the three parts for all parts free of the separators, and parsing never crashes.", "quantifier": "all argument strings", "why_tests_cant": "Infinite strings.", "anchors": ["src/syntax/input.rs: Input::from_str, Locator::from"]}
{"id": "C33", "title": "Import cycles are detected", "statement": "A set of imports is accepted iff no file transitively imports itself, and the inputs reported for a unit are exactly those transitively imported from it.", "quantifier": "all finite import graphs", "why_tests_cant": "Unbounded graphs.", "anchors": ["src/syntax/import.rs: ImportGraph"]}
{"id": "C34", "title": "Tokenising is lossless", "statement": "Concatenating the texts of the tokens of a source file gives back the file, and tokenising always terminates.", "quantifier": "all source texts", "why_tests_cant": "Infinite texts.", "anchors": ["src/syntax/rowan/lex.rs", "src/syntax/rowan/string_lex.rs"]}
{"id": "C35", "title": "Subtyping is a preorder", "statement": "The subtype check used for warnings is reflexive and transitive on fully known types.", "quantifier": "all triples of types without any/type variables", "why_tests_cant": "Types are unbounded trees.", "anchors": ["src/core/typecheck/subtype.rs: is_subtype"]}
{"id": "C36", "title": "A name always resolves to its innermost definition", "statement": "Operator fixity and names are looked up in the innermost enclosing block that defines them.", "quantifier": "all nestings of scopes", "why_tests_cant": "Unbounded nesting and shadowing.", "anchors": ["src/common/environment.rs: SimpleEnvironment", "src/core/cook/fixity.rs"]}
{"id": "C37", "title": "Anaphora become parameters in the expected order", "statement": "An expression with anonymous anaphora becomes a function whose parameters are in order of appearance; numbered anaphora _0.._n become parameters 0..n with unused gaps filled; mixing kinds is rejected.", "quantifier": "all sets of anaphora occurrences", "why_tests_cant": "Unbounded numbers of anaphora; ordering of numbers above nine.", "anchors": ["src/core/anaphora.rs", "src/core/cook/mod.rs"]}
{"id": "C38", "title": "Bracketed lists split into exactly their items", "statement": "Whitespace-separated bracket content is split at juxtapositions into items such that every item is a complete expression and joining the items with juxtapositions gives back the content: no item is lost, cut or merged.", "quantifier": "every sequence of atoms forming complete bracket content", "why_tests_cant": "Item boundaries depend on unbounded combinations of operator fixities and gaps.", "anchors": ["src/core/cook/mod.rs:split_at_cat_operators", "src/core/cook/mod.rs:cook_soup"]}
{"id": "C39", "title": "Shuffles are permutations and samples are without replacement", "statement": "Shuffling a list or vec with any random stream gives a permutation of it; sampling k elements gives min(k, length) elements taken without replacement; choosing from a non-empty list gives one of its elements; none of these fails, and each consumes a fixed number of draws.", "quantifier": "all lists, vecs, streams and sequences of floats", "why_tests_cant": "Unbounded collections and 2^64 streams.", "anchors": ["lib/prelude.eu: random.shuffle, random.sample, random.choice, vec.shuffle, vec.sample", "src/eval/stg/vec.rs: VecSample, VecShuffle", "src/eval/stg/set.rs: SetSample"]}
{"id": "C40", "title": "Vec indexing and slicing", "statement": "A slice [from, to) of a vec never fails and holds exactly the existing elements with those indices; indexing gives the element or an out-of-bounds error.", "quantifier": "all vecs and indices", "why_tests_cant": "Unbounded.", "anchors": ["src/eval/memory/vec.rs", "src/eval/stg/vec.rs: VecNth, VecSlice"]}
{"id": "C41", "title": "Sets are mathematical sets with a deterministic listing", "statement": "Add, remove, union, intersection and difference have the members of the mathematical operations; a set built from a list contains exactly the values equal to one in the list; listing a set gives a sorted list that depends only on its members.", "quantifier": "all sets and values", "why_tests_cant": "Unbounded, and hash order varies between runs.", "anchors": ["src/eval/memory/set.rs: HeapSet", "src/eval/stg/set.rs"]}
{"id": "C42", "title": "Curating a trace does not change the blame", "statement": "The location blamed for an error is the first user frame of the raw trace, whatever frames are dropped, merged or cut to fit the budget; the curated trace shows raw frames in order, drops only library plumbing and repetition, and never exceeds its budget.", "quantifier": "every source map, raw trace and budget", "why_tests_cant": "Traces and source maps are unbounded; the source asserts the agreement in comments only.", "anchors": ["src/eval/error.rs: curate, curate_trace, curate_stack_trace, curate_trace_with_env", "src/common/sourcemap.rs: classify_frame, first_user_source_smid"]}
{"id": "C43", "title": "What an importing unit sees of the units before it", "statement": "When units are merged, each free name in a later unit means the first exported binding of that name in the innermost group of the earlier unit that exports one; a binding marked `export: :internal` is never seen, the bodies of the earlier unit's own bindings are untouched, and all references stay well scoped.", "quantifier": "every pair of units", "why_tests_cant": "Units nest arbitrarily many binding groups with arbitrary shadowing between exported and internal names.", "anchors": ["src/core/expr.rs: rebody, rebody_int, merge_in, has_internal_export, collect_internal_binding_names, mask_internal_free_vars", "src/core/unit.rs: TranslationUnit::merge"]}
{"id": "C44", "title": "Parsing never crashes and keeps every token", "statement": "For every source text, parsing terminates without a panic, and the tokens of the syntax tree, read left to right, are exactly the tokens of the source, in order.", "quantifier": "every source text, valid or not", "why_tests_cant": "The parser collects events in nested sinks that move tokens between declaration heads, bodies and metadata; whether one is dropped or reordered depends on the shape of erroneous input, of which there are infinitely many.", "anchors": ["src/syntax/rowan/parse.rs: Parser::parse_unit, build, BlockEventSink"]}
{"id": "C45", "title": "Call syntax is recognised exactly when brackets touch", "statement": "An opening bracket, brace or parenthesis is read as a call (or block / list application) exactly when it directly follows, with no whitespace, something that can be called (a name, a closing bracket, a string end, a number or other literal that the grammar lists as callable); otherwise it opens a separate element.", "quantifier": "every source text and every bracket in it outside string patterns", "why_tests_cant": "The lexer decides with two pieces of remembered state that must be right after every token sequence, including those buffered by string patterns.", "anchors": ["src/syntax/rowan/lex.rs: Lexer::paren, brace, square, next"]}
{"id": "C46", "title": "String literals mean what they say", "statement": "Writing a text and interpolations as a string literal (doubling braces in plain and raw strings; escaping braces, quotes and backslashes in c-strings) and reading it gives back the same text and the same interpolations.", "quantifier": "every text, interpolation target and format", "why_tests_cant": "The lexer's treatment of a brace or backslash depends on what comes before it; tests try a few combinations.", "anchors": ["src/syntax/rowan/string_lex.rs: StringPatternLexer, CStringPatternLexer", "src/syntax/rowan/lex.rs: dquote", "src/syntax/rowan/parse.rs: parse_string_pattern", "src/core/desugar/rowan_ast.rs: desugar_rowan_string_pattern"]}
{"id": "C47", "title": "Accepted types are sound for values", "statement": "If the type checker's subtype check accepts a type where another is expected, every value of the first type is a value of the second, whatever values there are: elements of lists and tuples, fields of blocks, results of functions, optics and IO actions.", "quantifier": "all pairs of fully known types, all collections of values with an interpretation of the basic types", "why_tests_cant": "Types nest without bound and values are unbounded; a unit test compares a few types and never looks at values.", "anchors": ["src/core/typecheck/subtype.rs: is_subtype, is_subtype_co, is_app_subtype, tuple_matches_prefix_list"]}
{"id": "C48", "title": "Dead code elimination changes no result", "statement": "Eliminating unused definitions, and the members of a namespace block that are only ever reached by name and never looked up, never changes what the program stands for: with references followed and member lookups carried out to any depth, the program before and after is seen alike. Elimination always ends, never panics on a well-scoped program, never removes a definition that is still referred to (so the internal error for a reference to an eliminated definition cannot occur), and leaves no eliminated placeholder behind, so it can be repeated after later passes.", "quantifier": "all well-scoped core programs of any size and nesting, including mutually recursive definitions, nested lets inside definitions, metadata, lambdas, lookups with fallbacks, and any number of marking passes", "why_tests_cant": "Marking is a fixpoint over repeated traversals with four mark states shared between passes; a missed reference shows only for particular shapes of nesting and order of discovery.", "anchors": ["src/core/simplify/prune.rs: prune, ScopeTracker::mark_reachable, traverse, blank_unseen, blank_default_block_let, BlockAccessTracker", "src/core/simplify/compress.rs: compress", "src/driver/source.rs: SourceLoader::eliminate"]}
{"id": "C49", "title": "Decoding the program once changes nothing that execution reads", "statement": "Before running, the machine decodes the whole byte code into a flat list of instructions. For every program the compiler can encode within the format's limits, this decoding succeeds, and following the instructions from the entry point, from each global slot, and from each of the machine's fixed code fragments gives exactly the expressions that were encoded, with the same constants, branches, fallbacks, argument lists, binding kinds and parameter counts. Execution straight from the bytes reads the same expressions. This holds both for a whole program and for a prelude image with overrides and a root appended.", "quantifier": "all programs within the format's limits, with any sharing, nesting, chains of annotations and numbers of bindings, and any order of discovery", "why_tests_cant": "Ordinals are assigned on discovery, children before they are decoded, with offsets aliased through annotations and operands packed into shared pools; a slip shows only for particular shapes and pool positions.", "anchors": ["src/eval/bytecode/predecode.rs: decode_program, Decoder::ordinal_for, decode_node, push_refs, push_offsets, run, Instr", "src/eval/bytecode/machine.rs: handle_op, handle_op_predecoded, form_info, branch_pool_match", "src/eval/bytecode/encode.rs: encode_program, encode_root_onto"]}
{"id": "C50", "title": "Running a program gives what the program means", "statement": "Evaluation with shared thunks, updates in place, black holes, argument arrays, partial applications and frames that alias constructor fields gives the same answer as evaluating by name with no sharing at all: if the machine stops with a value, the program means a value with the same native, the same constructor and number of fields, or the same number of parameters; if it stops with an error, that is the error the program means; and if the program means something, the machine stops. The answer does not depend on whether the byte code was decoded beforehand.", "quantifier": "all programs of any size, all globals, any intrinsics on natives, all runs of any length", "why_tests_cant": "Sharing and updating make the machine's state depend on the whole history; a wrong slot, a stale frame or a lost argument shows only in particular combinations of calls, partial applications and updates.", "anchors": ["src/eval/bytecode/machine.rs: handle_op, handle_op_predecoded, return_native, return_fun, return_data, return_meta, partially_apply, make_arg_array, enter_local, enter_global, env_from_data_args, native_from_value, step, run, BytecodeMachine::new", "src/eval/bytecode/env_builder.rs", "src/eval/bytecode/program.rs: pap_offset", "src/eval/bytecode/cont.rs: BcContinuation", "src/eval/machine/env.rs"]}
{"id": "C51", "title": "An infinite loop is reported only when there is one", "statement": "If evaluation stops because it entered a value that is still being evaluated, then the program has no value: evaluated by name it would never end.", "quantifier": "all programs and all runs", "why_tests_cant": "Whether a black hole is met on a finite program depends on which values were copied into new frames while they were under evaluation.", "anchors": ["src/eval/bytecode/machine.rs: enter_local, enter_global, env_from_data_args_copy, make_arg_array, return_fun, handle_op (BlackHole)"]}
{"id": "C52", "title": "An intrinsic takes an argument only if it is of the kind it asks for", "statement": "An intrinsic that asks for a number, a string or another plain value gets one; if it is given a function it reports an error and never reads something else in its place.", "quantifier": "all programs that call an intrinsic", "why_tests_cant": "Arguments are looked through by their code, so whether a function is taken for the value its body refers to depends on the body and on its environment.", "anchors": ["src/eval/bytecode/machine.rs: native_from_value, resolve_native"]}
{"id": "C53", "title": "Optimising compiled code never brings the compiler down", "statement": "The optimiser of compiled code gives a program back for every well-formed program it is handed.", "quantifier": "all well-formed compiled programs", "why_tests_cant": "The optimiser unwraps conversions on whatever tags it meets, at any depth and after any number of rewrites.", "anchors": ["src/eval/stg/optimiser.rs: AllocationPruner::apply", "src/eval/stg/compiler.rs: compile", "src/eval/stg/tags.rs: DataConstructor"]}
{"id": "C54", "title": "The optimised program shows what the program shows", "statement": "Running a program with the optimiser on and off gives the same value, to any depth of its structure, the same error, or in both cases no answer.", "quantifier": "all well-formed programs, all global bindings and intrinsics, all paths into the result", "why_tests_cant": "Each rewrite moves the names under it, and rewrites nest without bound; a wrong name shows only if the value it wrongly names differs and is looked at.", "anchors": ["src/eval/stg/optimiser.rs: AllocationPruner, LetIndexTransformation, BumpIndexTransformation, ShiftIndexTransformation", "src/eval/stg/syntax.rs: dsl::force"]}
{"id": "C55", "title": "Optimised code has no dangling names", "statement": "If every name in a compiled program refers to something in scope, so does every name in the optimised program.", "quantifier": "all well-formed compiled programs", "why_tests_cant": "A name left behind by a removed binding is harmless until the binding it lands on is the wrong one or is not there.", "anchors": ["src/eval/stg/optimiser.rs: AllocationPruner::apply, transform, transform_bindings", "src/eval/stg/syntax.rs: StgSyn::LookupLit"]}
{"id": "C56", "title": "The document written is the value rendered", "statement": "When a value is data (scalars, lists, blocks, with tags and export metadata), the JSON, YAML, TOML or EDN document written stands for it: items in order, each key once with the value last given to it (eucalypt's own syntax: every field), hidden values and functions left out, integers exact, tags kept where the format has tags; data the format cannot carry is refused; and what is written without an error was data.", "quantifier": "all values, of any depth, with any metadata; all displays of numbers and times", "why_tests_cant": "Values nest without bound, and a field dropped or shifted by one changes every field after it without any error.", "anchors": ["src/eval/stg/render.rs: Render, RenderItems, RenderBlockItems, RenderKv, Suppresses, Saturated", "src/eval/stg/emit.rs: EmitNative, EmitTagNative, emit_set, emit_vec, emit_ndarray_data, tag_from_arg", "src/export/table.rs: Expectation, TableAccumulator", "src/export/json.rs", "src/export/yaml.rs", "src/export/toml.rs", "src/export/edn.rs", "src/export/eu.rs", "src/export/mod.rs: unrepresentable_key"]}
{"id": "C57", "title": "A failed run writes no document, a successful run writes one", "statement": "For JSON, YAML, TOML, EDN and eucalypt's own syntax: if rendering fails, at any point and for any reason, nothing is written; if it succeeds exactly one document is written.", "quantifier": "all values, including ones whose evaluation fails at any place", "why_tests_cant": "The failure may come after any number of events at any depth.", "anchors": ["src/export/table.rs: TableAccumulator::consume, document_open", "src/driver/eval.rs: finish of the stream", "src/eval/emit.rs: Emitter"]}
{"id": "C58", "title": "Text output is the scalars, one to a line", "statement": "Rendering a value as text writes its scalars, keys included, in order, each on a line; a run that fails writes nothing.", "quantifier": "all values", "why_tests_cant": "Values nest without bound, and the failure may come after any number of lines.", "anchors": ["src/export/text.rs: TextEmitter, as_text"]}
{"id": "C59", "title": "Markup is written whole or refused", "statement": "A value accepted as markup is written as one element that has all the text of the value: tag, attributes and contents in order; a scalar or a block at the root is refused; a run that fails writes nothing.", "quantifier": "all values", "why_tests_cant": "Elements nest without bound; text that is dropped leaves no trace.", "anchors": ["src/export/markup.rs: Expectation, MarkupEmitterInternal, unacceptable, emit", "src/export/html.rs"]}
{"id": "C60", "title": "Compiled code means what the expression means", "statement": "The code made for a core expression, evaluated, shows just what the expression shows when its meaning is worked out by name with nothing shared and nothing evaluated before it is asked for: the same value, the same fields of it and of those, the same errors, and no end where there is none.", "quantifier": "all core expressions of any size, all tables of intrinsics and prelude, all paths into the result", "why_tests_cant": "Names become positions that depend on everything bound in between; one wrong position gives another program, and evaluating something too early shows only if that thing fails or does not end.", "anchors": ["src/eval/stg/compiler.rs: Compiler, LetBinder, Context, ProtoSyntax, ProtoLet, ProtoAppGroup, ProtoLambda, compile_body, compile_binding, compile_list_binding, compile_block", "src/core/demand.rs: Demand"]}
{"id": "C61", "title": "A closed program compiles, and to closed code", "statement": "A program all of whose names are bound or known is compiled without error and without a crash, in every rendering; and whatever compiles, the code refers to no name and no global that is not there, its constructors have the right number of arguments, and no case has two branches for one tag.", "quantifier": "all core expressions, all tables that lead to globals", "why_tests_cant": "References are computed from how many bindings each enclosing construct happens to make; there is no bound on the nesting.", "anchors": ["src/eval/stg/compiler.rs: Context::lookup, LetBinder::into_stg, compile_body, compile_binding, compile_lookup, CompileError"]}
{"id": "C62", "title": "Running the compiled program gives what the expression means", "statement": "Compile a core expression, optimise it or not, and run it on the machine: a value at the end is the expression's value, an error is the expression's error, and if the expression has either the machine ends.", "quantifier": "all core expressions, all runs of any length", "why_tests_cant": "It is about every program and every state of the heap on the way.", "anchors": ["src/eval/stg/compiler.rs", "src/eval/stg/optimiser.rs", "src/eval/bytecode/machine.rs"]}
{"id": "C63", "title": "Demand analysis ends", "statement": "The analysis that decides how each binding is used comes to an end on every program, in no more turns of any of its loops than four for each binding of the largest let and one.", "quantifier": "all core expressions, with bindings that see each other in any way", "why_tests_cant": "Its loops go on until nothing changes; a demand that could go down as well as up would make it run for ever on some graph of bindings and on no other.", "anchors": ["src/core/analyse_demand.rs: analyse_let, analyse_expr", "src/core/demand.rs: plus, scale"]}
{"id": "C64", "title": "Demand analysis leaves the program alone", "statement": "Apart from what it writes on bindings the program that comes out of the analysis is the program that went in, and it means the same.", "quantifier": "all core expressions, all paths into the result", "why_tests_cant": "A binding or an argument dropped or exchanged in some rarely taken case gives another program.", "anchors": ["src/core/analyse_demand.rs: analyse_demands, analyse_expr, analyse_let, analyse_lam, analyse_app"]}
{"id": "C65", "title": "What is not needed is not evaluated", "statement": "A program compiled with the help of the analysis shows what it shows without: in particular a binding or argument that fails, and that is not needed for what is asked of the program, does not make it fail.", "quantifier": "all core expressions, all tables of intrinsics, all paths into the result", "why_tests_cant": "Forcing something early shows only if that thing fails or does not end and is not needed, and which bindings are forced depends on how all the rest of the program uses them.", "anchors": ["src/core/analyse_demand.rs: analyse_expr, analyse_let, analyse_lam", "src/core/demand.rs:14-16", "src/eval/stg/compiler.rs: mark_strict, into_stg", "docs/understanding/lazy-evaluation.md"]}
{"id": "C66", "title": "The names chosen for functions do not matter", "statement": "To rename a function that is not used, or that is used under its new name everywhere, does not change what the compiled program shows.", "quantifier": "all core expressions, all names", "why_tests_cant": "What is known of a function is kept under its name for the whole program; only a program with another function of that name, passed as an argument or bound elsewhere, can tell.", "anchors": ["src/core/analyse_demand.rs: NamedSignatureTable, analyse_let", "src/eval/stg/compiler.rs: user_demand_sigs"]}
{"id": "C67", "title": "A binding that leads back to itself is never forced", "statement": "A binding of a let that refers to itself, directly or through others of the let in any number of steps, is never marked for evaluation before the body is asked for.", "quantifier": "all lets with any number of bindings and any references among them", "why_tests_cant": "Paths may be of any length through any of the bindings.", "anchors": ["src/core/analyse_demand.rs: analyse_let steps 3, 4a and 6", "src/eval/stg/compiler.rs:971"]}
{"id": "C68", "title": "Without permission no command is run", "statement": "Without --allow-io a program runs no command, whatever it is; and apart from the message that it needs permission, it does what it does with permission.", "quantifier": "all programs, all answers of the operating system, all moments at which the collector may run, runs of any length", "why_tests_cant": "An action may be reached in any way: behind a bind, in a result, in the field of a spec; and the check has to come before the command in all of them.", "anchors": ["src/driver/bytecode_io_run.rs: io_run, inject_world_and_run, io_run_and_render", "src/driver/eval.rs:587-622", "src/driver/io_common.rs: run_spec"]}
{"id": "C69", "title": "Commands are run in the order of the program", "statement": "A program that combines actions with bind and return runs its commands one after another in the order in which it puts them, each once, each with what came of those before; it writes the value or fails as the actions say; return and bind obey the laws of a monad; and it makes no difference when the collector runs.", "quantifier": "all programs of any language of values, all answers of the operating system, all moments at which the collector may run, binds nested in any way", "why_tests_cant": "The driver holds values across evaluations that may move everything, and keeps continuations on a stash; one held back or taken off in the wrong order shows only when a collection comes just then or binds are nested just so.", "anchors": ["src/driver/bytecode_io_run.rs: io_run, evaluate_spec_block, force_field", "src/eval/bytecode/machine.rs: stash_push, stash_pop, stash_peek, evaluate_to_whnf_for_io, resume", "lib/prelude.eu: io"]}
{"id": "C70", "title": "A command is given what the program says", "statement": "A command is run with the arguments of the program, all of them and in order, with the input it gives and the time limit it gives.", "quantifier": "all lists of texts as arguments, all texts as input, all whole numbers of seconds below 2^64", "why_tests_cant": "Arguments may be any text and their list may have been built in any way.", "anchors": ["src/driver/io_common.rs: action_spec_from_fields, split_nul_args", "src/driver/bytecode_io_run.rs: evaluate_spec_block", "src/eval/bytecode/machine.rs: list_element_values, whnf_scalar_string"]}
{"id": "C71", "title": "A command gives its result or is given up", "statement": "A command that ends gives all it has written and its exit code, and one that does not end in time is given up at its time limit.", "quantifier": "all commands (any program that works, reads, writes and exits), all inputs, all sizes of pipes, all interleavings", "why_tests_cant": "Whether the writer and the command wait for each other depends on sizes and on scheduling.", "anchors": ["src/driver/io_common.rs: run_command"]}
{"id": "C72", "title": "Inlining keeps what a program shows", "statement": "Marking small functions, putting them in where they are named, and applying them to their arguments before the program runs gives a program that shows the same at every depth: the same values, the same errors, and no end where there was none. The inliner itself comes to an end.", "quantifier": "all programs, all surroundings (intrinsics and prelude of any meaning), all paths into the value", "why_tests_cant": "Names and scopes can coincide in any number of ways, and a name captured by a let or a function around it goes wrong only for just that nesting.", "anchors": ["src/core/inline/tag.rs: tag_combinators", "src/core/inline/reduce.rs: inline_pass, distribute, beta_reduce", "src/core/expr.rs: substs, open_let_scope_full, close_let_scope", "src/driver/source.rs: SourceLoader::inline"]}
{"id": "C73", "title": "Applying functions early repeats no work", "statement": "A function applied before the program runs, whose parameter occurs more than once, does not have its argument worked out more than once: the expression has no more applications after than before.", "quantifier": "all expressions, with functions marked in any way and of any body", "why_tests_cant": "Repeated work shows as time, not as a wrong result, and doubles with every level of nesting.", "anchors": ["src/core/inline/reduce.rs: beta_reduce, duplicable, fresh_name"]}
{"id": "C74", "title": "The parallel map gives one result", "statement": "`par-map` has the same outcome, value or error, however many workers there are, whether processes can be forked or not, whether workers die, run out of room or read what they may not, and in whatever order what they write reaches the shared memory; and it has an outcome.", "quantifier": "all functions, all lists of values not yet evaluated, all numbers of workers, all failures of workers and of the platform, all interleavings of writes, all states of the machine", "why_tests_cant": "A worker that goes wrong is hidden by the sequential run that follows it, and interleavings cannot be enumerated.", "anchors": ["src/eval/stg/parallel/driver.rs: par_map, try_parallel, sequential_map, chunk_bounds, collect_spine", "src/eval/stg/parallel/serialise.rs: force_and_serialise, deserialise_value", "src/eval/stg/parallel/fork.rs"]}
{"id": "C75", "title": "The shared memory is read and written within bounds", "statement": "A worker writes to its own segment only; what the parent reads of a segment lies in it, whatever is in the memory; and what each worker pushed is what is read back, in whatever order the writes of all of them happen.", "quantifier": "all sizes of segments, all buffers, all numbers of workers, all contents of the memory, all interleavings", "why_tests_cant": "A length that points outside appears only when a worker was ended in the middle of a write or has gone wrong.", "anchors": ["src/eval/stg/parallel/arena.rs: Arena, SegmentWriter, SegmentReader"]}
{"id": "C76", "title": "The parallel map shows what map shows", "statement": "If every result can be evaluated and rendered, the list that `par-map` gives shows what the list that `map` gives shows: the same values, the same keys in the same order, the same metadata.", "quantifier": "all functions, all lists, all results with any nesting of lists, blocks and metadata, all ways of running", "why_tests_cant": "Values can be nested and annotated in any way, and each has to survive being written as bytes and read again.", "anchors": ["src/eval/stg/parallel/serialise.rs: serialise_forced, serialise_block, deserialise_value", "src/eval/bytecode/machine.rs: return_meta, enter_whnf_subrun, take_stripped_meta"]}
{"id": "C77", "title": "The parallel map uses no handle the collector has left behind", "statement": "While a parallel map runs the garbage collector may run whenever something is evaluated; no handle from before that is used afterwards, no root is read that is not there, and when the map ends, with a value or with an error, the root set is what it was.", "quantifier": "all functions, all lists, all ways of running, all states of the machine", "why_tests_cant": "A stale handle goes wrong only if a collection happens at just that moment.", "anchors": ["src/eval/stg/parallel/roots.rs: with_roots", "src/eval/stg/parallel/serialise.rs", "src/eval/stg/parallel/driver.rs"]}
{"id": "C78", "title": "Union-find labels tell the components apart", "statement": "`graph.union-find(n, edges)` gives one label per node; two nodes have the same label exactly if there is a way between them along the edges, and the label is a node of the same component, labelled by itself. It never fails.", "quantifier": "all numbers of nodes, all lists of edges between natural numbers, in every order, with repetitions, loops and edges that name no node", "why_tests_cant": "The forest depends on the order of all the edges and on the ranks; there are unboundedly many graphs.", "anchors": ["src/eval/stg/graph.rs: GraphUnionFind", "lib/prelude.eu: graph.union-find"]}
{"id": "C79", "title": "The topological order is one, and complete exactly without cycles", "statement": "`graph.topo-sort(n, edges)` gives no node twice, puts the start of an edge before its end, and has exactly the nodes that no cycle leads to; so it has `n` nodes exactly if there is no cycle. It never fails.", "quantifier": "all numbers of nodes, all lists of edges between natural numbers", "why_tests_cant": "That nothing beyond what a cycle leads to is lost is a statement about all paths of all graphs.", "anchors": ["src/eval/stg/graph.rs: GraphTopoSort", "lib/prelude.eu: graph.topo-sort"]}
{"id": "C80", "title": "The merge history is that of Kruskal", "statement": "`graph.kruskal-edges(n, edges)` reports an edge exactly if its ends are nodes that the edges before it do not connect, together with the number of components there are after it, in the order of the edges. It never fails.", "quantifier": "all numbers of nodes, all lists of edges between natural numbers", "why_tests_cant": "Connectedness by all earlier edges and the number of components are properties of all paths.", "anchors": ["src/eval/stg/graph.rs: GraphKruskalEdges", "lib/prelude.eu: graph.kruskal-edges"]}
{"id": "C81", "title": "An edge that names something that is not a node is left out", "statement": "An edge one end of which is not one of the numbers from 0 to n - 1 changes no result of `graph.union-find` and `graph.topo-sort`.", "quantifier": "all graphs, all such edges", "why_tests_cant": "Which numbers are taken for nodes depends on conversions at every value.", "anchors": ["src/eval/stg/graph.rs", "lib/prelude.eu: graph"]}
{"id": "C82", "title": "Formatting keeps the program", "statement": "Reading what `eu fmt` writes gives the same tokens as reading the source, apart from white space: same kinds, same texts, same order; a source that ends with white space has the same syntax tree as what is written for it.", "quantifier": "all source texts, of any length, with any Unicode tables under which white space is no letter, digit, symbol or punctuation", "why_tests_cant": "What a token is depends on unboundedly much text before and after it; changing white space can join or split tokens anywhere.", "anchors": ["src/syntax/export/format.rs: format_source, process_node_conservative, process_token_conservative, normalize_whitespace", "src/driver/format.rs", "src/syntax/rowan/lex.rs", "src/syntax/rowan/validate.rs"]}
{"id": "C83", "title": "Formatting is done once", "statement": "What `eu fmt` writes is left as it is by `eu fmt`, and `eu fmt --check` passes it; it has no tabs or carriage returns between tokens and ends with a newline. `--check` passes exactly the texts of which this is true.", "quantifier": "all source texts", "why_tests_cant": "A fixed point for every text follows only from how the written text is read again.", "anchors": ["src/syntax/export/format.rs: format_source, format_unit, needs_formatting", "src/driver/format.rs"]}
{"id": "C84", "title": "Formatting changes the layout by expanding tabs only", "statement": "What `eu fmt` writes is the source without carriage returns, with every tab replaced by blanks to the next column that is a multiple of eight, and with a final newline.", "quantifier": "all source texts whose tokens other than white space have no tabs and carriage returns", "why_tests_cant": "The column at a tab depends on the whole line before it and on how its tokens are counted.", "anchors": ["src/syntax/export/format.rs: normalize_whitespace, process_token_conservative"]}
{"id": "C85", "title": "Array coordinates are listed all, once and in order", "statement": "`arr.indices` lists exactly the coordinates inside the shape of an array, each once, ordered by the first coordinate, then the second and so on; `arr.to-list` gives what `arr.get` gives at them in that order, and `arr.length` is their number and the product of the shape.", "quantifier": "all arrays that can be made by the functions of the prelude, of any rank and shape", "why_tests_cant": "Coordinates are computed from places by strides; a wrong stride shows only for some ranks and unequal dimensions.", "anchors": ["src/eval/memory/ndarray.rs: indices, to_flat_vec, len", "src/eval/stg/array.rs: ArrayIndices, ArrayToList, ArrayLength", "lib/prelude.eu: arr"]}
{"id": "C86", "title": "Reading and setting array elements", "statement": "`arr.get` gives a number exactly at the coordinates inside the shape and fails at all others, with one error for negative ones and one for the rest; after `arr.set` the number set is read there and all other coordinates read as before.", "quantifier": "all arrays, all lists of coordinates of any length, all finite numbers", "why_tests_cant": "Two coordinates may share a place; that none do is a statement on all pairs.", "anchors": ["src/eval/memory/ndarray.rs: get, with_set", "src/eval/stg/array.rs: ArrayGet, ArraySet, num_list_to_usize_vec"]}
{"id": "C87", "title": "Reshaping, transposing and slicing arrays", "statement": "`arr.reshape` takes exactly the shapes with the same number of elements, keeps the list of elements and is undone by reshaping back; the transpose is read with the coordinates reversed and transposing twice gives the array; a slice is read as the array with the index put in at the axis, and axes and indices out of range are refused.", "quantifier": "all arrays, shapes, axes, indices and coordinates", "why_tests_cant": "The elements move between unboundedly many places by arithmetic on the shape.", "anchors": ["src/eval/memory/ndarray.rs: reshape, transpose, slice_along", "src/eval/stg/array.rs: ArrayReshape, ArrayTranspose, ArraySlice"]}
{"id": "C88", "title": "Array arithmetic and maps act on each element", "statement": "Arithmetic of arrays of one shape, and of arrays with numbers on either side, gives at each coordinate the result for what is read there; other shapes are refused. `arr.map`, `arr.map-indexed` apply the function to what is read at each coordinate; `arr.fold` goes in the order of `arr.indices`; `arr.unit-arrays` has for each coordinate the array that is 1 there and 0 elsewhere.", "quantifier": "all arrays, functions, operations and numbers, for any arithmetic of doubles", "why_tests_cant": "A claim on every element of arrays of every shape and on every operation.", "anchors": ["src/eval/memory/ndarray.rs: zip_with, scalar_op", "src/eval/stg/array.rs: array_binop", "lib/prelude.eu: arr.map, arr.map-indexed, arr.fold, arr.unit-arrays"]}
{"id": "C89", "title": "Array neighbours", "statement": "`arr.neighbours` gives, for each offset in order, what is read at the coordinates moved by it, leaving out those outside the array.", "quantifier": "all arrays, coordinates and lists of offsets", "why_tests_cant": "Offsets are flattened and cut up again and the sums are of machine integers; that this does no harm is a statement on all lists of offsets and all numbers.", "anchors": ["src/eval/memory/ndarray.rs: neighbours_values", "src/eval/stg/array.rs: ArrayNeighbours", "lib/prelude.eu: arr.neighbours"]}
{"id": "C90", "title": "Arrays are written out as nested lists", "statement": "An array is written out as lists nested as its shape says, such that following coordinates in them leads to what `arr.get` gives at these coordinates and to nothing elsewhere; all numbers written are `arr.to-list` in order.", "quantifier": "all arrays, of any rank, and all coordinates", "why_tests_cant": "The nesting is recursive in the rank.", "anchors": ["src/eval/stg/emit.rs: emit_ndarray_data", "src/eval/memory/ndarray.rs: slice_along, get"]}
{"id": "C91", "title": "A plain YAML scalar is what YAML says it is", "statement": "A plain scalar without a tag is read as null, boolean, number or string as the core schema of YAML 1.2 says; in data that may hold dates a date is read as one.", "quantifier": "all texts of scalars", "why_tests_cant": "Thirteen regular expressions are tried in turn on every text there is; a wrong anchor shows only on texts nobody thought of.", "anchors": ["src/import/yaml.rs: YAML_SCALAR_PATTERNS, infer_tag_for_plain_scalar, convert_scalar, parse_bool"]}
{"id": "C92", "title": "Numbers in YAML and JSON are read as written", "statement": "A plain scalar that is a number is read as that number, and whatever is read as a number is a number with the text it is written with.", "quantifier": "all texts of scalars, with any tag", "why_tests_cant": "Two grammars of numbers are laid over each other, with no bound on the length of a number.", "anchors": ["src/import/yaml.rs: convert_scalar, infer_tag_for_plain_scalar"]}
{"id": "C93", "title": "A YAML document is read as the value it writes", "statement": "Reading a document gives the value that it writes, with an alias standing for what its anchor is on, or an error if it writes none; it never panics.", "quantifier": "all documents, nested to any depth, with any anchors, aliases, tags and merge keys", "why_tests_cant": "The reader is a stack machine on events; that no stack is met that it does not expect holds of all nestings.", "anchors": ["src/import/yaml.rs: Receiver, Expectation, on_event, complete_list, complete_block, feed"]}
{"id": "C94", "title": "Merge keys and repeated keys in YAML", "statement": "In a mapping every key is there once; its value is that of the last entry that writes the key out, or, if none does, of the first merge key that brings it, where in a list of mappings the later ones go before.", "quantifier": "all mappings with any number of merge keys and repeated keys in any order", "why_tests_cant": "The rule is about the order of any number of entries.", "anchors": ["src/import/yaml.rs: handle_merge, extract_merge_entries, Expectation::feed"]}
{"id": "C95", "title": "Names in embedded code refer to the mappings around it", "statement": "In code embedded in YAML (`!eu`, `!eu::fn`) a name refers to the innermost mapping around the code that has such a key, and else to what is outside the document.", "quantifier": "all documents with any code at any depth", "why_tests_cant": "References are numbers that are moved whenever a mapping is closed around them; a wrong move shows only at some depth.", "anchors": ["src/import/yaml.rs: complete_block, extract_merge_entries, parse_eu, parse_eu_fn", "src/core/expr.rs: close_expr_vars, default_let"]}
{"id": "C96", "title": "Text read as data only has nothing in it to run", "statement": "What `parse-as` reads in any format has in it no function, application, intrinsic or name to be found elsewhere, only data.", "quantifier": "all texts in all formats but XML", "why_tests_cant": "It is a claim that no text whatever gets code through.", "anchors": ["src/import/mod.rs: read_to_core_data_only, read_to_core_impl", "src/import/jsonl.rs: read_jsonl", "src/import/yaml.rs: convert_scalar", "src/import/toml.rs: to_core", "src/import/edn.rs: value_to_core", "src/eval/stg/parse_string.rs: ParseString"]}
{"id": "C97", "title": "Nothing is lost from tables, maps, records and lines", "statement": "Each entry of a TOML table or an EDN map, each cell of a CSV record and each line of a text or of lines of JSON is in what is read, under its key, header or number.", "quantifier": "all tables, maps, records and texts", "why_tests_cant": "Collecting entries into a map loses one whenever two keys turn out alike, which depends on the input.", "anchors": ["src/import/toml.rs: to_core", "src/import/edn.rs: value_to_core, value_to_key", "src/import/csv.rs: read_csv, convert_string_record", "src/import/text.rs: read_text", "src/core/expr.rs: block"]}
{"id": "C98", "title": "Putting in what is known keeps what a program shows", "statement": "Members of blocks and first and rest of lists that are written out in the program are put in before it is run; the program so changed shows just what it did, in its value and everything in that, errors and endless computations included.", "quantifier": "all programs, all places in their values", "why_tests_cant": "It compares two runs of every program there is, and what is taken away is work that might have failed or never ended.", "anchors": ["src/core/transform/fuse.rs: fuse, fold_block_lookup, fold_head_call, fold_tail_call", "src/eval/stg/block.rs: LookupOr, MatchesKey, ExtractValue", "src/eval/stg/list.rs: Head, Tail", "src/eval/stg/eq.rs: Eq"]}
{"id": "C99", "title": "Putting in what is known comes to an end and is complete", "statement": "It ends on every program; nowhere in the result is there a member of a written block or a first or rest of a written list still to be got; done again it changes nothing; no calls are added.", "quantifier": "all programs", "why_tests_cant": "What is put in may itself have something to be put in, to any depth.", "anchors": ["src/core/transform/fuse.rs: fuse", "src/core/expr.rs: try_walk_safe"]}
{"id": "C100", "title": "Going straight to members of namespaces keeps what a program shows", "statement": "A lookup of a member in a namespace of the prelude, `str.upper`, is replaced by the name of a global for that member; the program shows what it did.", "quantifier": "all programs and preludes, all places in their values", "why_tests_cant": "Replacement is by name; whether a name is used for something else as well depends on the program.", "anchors": ["src/core/transform/hoist.rs: hoist_with_blob_globals, collect_all_hoistable, rewrite_lookups", "src/driver/source.rs: hoist_namespaces"]}
{"id": "C101", "title": "A target is found by its name", "statement": "The target entered by `-t name`, and the one named `main` when none is asked for, is determined by the program: running the same program again enters the same one, in the same format. An unknown name is an error.", "quantifier": "all programs, all names, all orders in which targets may be gone through", "why_tests_cant": "Which one is found depends on the order of a hash set, seeded anew on each run.", "anchors": ["src/core/unit.rs: TranslationUnit::retarget, target, merge_with", "src/driver/prepare.rs: prepare", "src/driver/eval.rs: determine_format"]}
{"id": "C102", "title": "`eu test` succeeds just when every test passes", "statement": "The exit code is 0 if, and only if, every target that is a test passes all of its checks in each of its formats, for every test file.", "quantifier": "all suites of test files, all behaviours of the programs under test", "why_tests_cant": "It is about the runner of tests itself: a failure it loses is one that no test run by it can show.", "anchors": ["src/driver/tester.rs: run_plans, InProcessTester::run, create_evidence_yaml, validate, summary", "lib/test.eu: validation, verification", "src/core/analyse/testplan.rs: TestPlan::analyse"]}
{"id": "C103", "title": "Tests that are left out do not make a run fail", "statement": "Tests that require `--allow-io` are left out when that is not given, and the exit code is that of the other tests.", "quantifier": "all suites of test files", "why_tests_cant": "It is about every mixture of tests run and left out.", "anchors": ["src/driver/tester.rs: run_plans, InProcessTester::report", "src/core/analyse/testplan.rs: requires_io, result_file_name"]}
{"id": "C104", "title": "The test report says of each test what it came to", "statement": "In the report each test file has the result of its own tests.", "quantifier": "all suites of test files", "why_tests_cant": "Results are kept in files whose names are made from those of the tests; whether two are the same depends on the suite.", "anchors": ["src/driver/tester.rs: InProcessTester::report", "src/core/analyse/testplan.rs: result_file_name, evidence_file_name"]}
{"id": "C105", "title": "The right targets are run as tests", "statement": "A test file's own `test` and `bench-` targets are run, its main target and any target with checks, each once in each of its formats; where there are none the whole file is; tests of imported files are not.", "quantifier": "all sets of targets", "why_tests_cant": "It is about all sets of targets, own and imported.", "anchors": ["src/core/analyse/testplan.rs: TestPlan::analyse"]}
{"id": "C106", "title": "Error tests check what the sidecar says", "statement": "An exit code and a pattern written in a `.expect` file are read as written, and the test passes just when the program ends with that code and its standard error matches.", "quantifier": "all exit codes, all patterns of one line, all outcomes", "why_tests_cant": "It is about all patterns, with quotes and backslashes at any place.", "anchors": ["src/core/analyse/testplan.rs: ErrorExpectation::parse, validate", "src/driver/tester.rs: error_test_with_binary"]}
{"id": "C107", "title": "Text is formatted to a width and a precision", "statement": "`str.fmt` of a text, and an interpolation with a format, gives the text cut to the precision if there is one, with blanks to make up the width: on the right with the flag `-`, on the left without. Nothing else is changed.", "quantifier": "all texts, all directives", "why_tests_cant": "It is about all texts, widths, precisions and flags at once.", "anchors": ["src/eval/stg/printf.rs: write_str, fmt", "src/eval/stg/string.rs: Fmt"]}
{"id": "C108", "title": "`%d` writes the number", "statement": "`str.fmt(n, \"%d\")` of a whole number gives its decimal digits with its sign, made up to the width.", "quantifier": "all whole numbers that can be held, all directives", "why_tests_cant": "Which numbers are written wrongly depends on how they are held: the first is above nine thousand billion.", "anchors": ["src/eval/stg/printf.rs: write_numeric", "src/eval/stg/string.rs: Fmt"]}
{"id": "C109", "title": "`%x` and `%o` write all 64 bits", "statement": "Whole numbers from -2^63 and under 2^63 are written in base 16 and 8 so that the digits read as the number, or for a negative one as 2^64 more; other numbers are an error.", "quantifier": "all numbers, all directives", "why_tests_cant": "It is about all numbers.", "anchors": ["src/eval/stg/printf.rs: write_numeric", "src/eval/stg/string.rs: Fmt"]}
{"id": "C110", "title": "`%.2f` is the double rounded to so many places", "statement": "With a precision, a number is written as a decimal with just so many digits after the point, no more than half of the last place away from the double, with the sign of the double.", "quantifier": "all numbers, all precisions, all directives", "why_tests_cant": "It is about all doubles and precisions.", "anchors": ["src/eval/stg/printf.rs: write_numeric, parse_precision", "src/eval/stg/string.rs: Fmt"]}
{"id": "C111", "title": "A format that is not a directive is refused", "statement": "A format is `%`, flags, a width, a precision, a length and a specifier; it is read as what it says, and anything else is an error.", "quantifier": "all formats, all values", "why_tests_cant": "It is about all texts that may be given as a format.", "anchors": ["src/eval/stg/printf.rs: parse_format, parse_flags, parse_width, parse_precision, parse_length, fmt", "src/eval/stg/string.rs: Fmt"]}
{"id": "C112", "title": "Base64 is that of the standard, and is read back", "statement": "`str.base64-encode` gives the base64 of RFC 4648 of the UTF-8 of a text; `str.base64-decode` gives the text back, reads just the texts that are base64 of some text, each as the one it is the base64 of, and refuses all others.", "quantifier": "all texts", "why_tests_cant": "It is about all texts, of all lengths and with all characters.", "anchors": ["src/eval/stg/encoding.rs: Base64Encode, Base64Decode"]}
{"id": "C113", "title": "Sorting gives the same elements in order, and is stable", "statement": "`qsort` and `sort-by` give just the elements they were given, whatever the comparison; if the comparison is an order, they come in order, and elements of which neither is less stay in the order they were in. No other list meets this.", "quantifier": "all lists, all comparisons", "why_tests_cant": "It is about all lists and all comparisons that are orders.", "anchors": ["lib/prelude.eu: qsort, sort-by, discriminate"]}
{"id": "C114", "title": "`sort-nums` and the running functions give the numbers they were given", "statement": "`sort-nums` gives just the numbers of the list in order; `running-max`, `running-min` and `running-sum` give at each place the greatest, the least and the sum of the numbers so far.", "quantifier": "all lists of numbers", "why_tests_cant": "Which numbers are changed depends on their size: the first is above nine thousand billion.", "anchors": ["src/eval/stg/list.rs: SortNumList", "src/eval/stg/running.rs", "src/eval/stg/support.rs: collect_num_list, machine_return_num_list", "lib/prelude.eu: sort-nums, running-max, running-min, running-sum"]}
{"id": "C115", "title": "Grouping loses no element", "statement": "`group-by` gives for each key that is met, in the order in which keys are first met, all elements with that key in their order. `group-consecutive-by` and `split-on` never fail and what they give put together is the list; `discriminate`, `uniq` and `nub-by` give what is asked for, in order.", "quantifier": "all lists, all keys and conditions", "why_tests_cant": "It is about all lists and all functions that give keys.", "anchors": ["lib/prelude.eu: discriminate, group-by, group-consecutive-by, uniq, nub-by, split-on, update-value-or"]}
{"id": "C116", "title": "`window` gives all full windows", "statement": "`window(n, step)` gives all runs of `n` elements that begin at places that are multiples of `step`; `window-all` also gives those cut off at the end; `partition` and `partition-all` put each element in one group.", "quantifier": "all lists, all sizes and steps above zero", "why_tests_cant": "Where it fails depends on the size, the step and the length together.", "anchors": ["lib/prelude.eu: window, partition, window-all, partition-all, take, drop"]}
{"id": "C117", "title": "Parts of lists are those that were asked for", "statement": "`take`, `drop`, `split-at`, `rotate`, `take-while`, `drop-while`, `split-after`, `split-when`, `nth`, `update-nth`, `update-first`, `range` and `transpose` give for all lists and numbers what their names say, or an error.", "quantifier": "all lists, all numbers, all conditions", "why_tests_cant": "It is about all lists and numbers; some of them give no answer and no error.", "anchors": ["lib/prelude.eu: take, drop, split-at, rotate, take-while, drop-while, split-after, split-when, nth, update-nth, update-first, range, transpose"]}
{"id": "C118", "title": "Changing one place of a block changes that place only", "statement": "`set-value` and `update-value-or` give the key its new value and leave other keys and their order; `alter` and `update` change what is at a path if there is something and otherwise change nothing; `merge-at` puts keys in at a path, making it if it is not there; what is at other paths is as it was. `select`, `dissoc` and `sort-keys` leave the values of the keys that are kept.", "quantifier": "all nested values, all paths, all functions, which may fail", "why_tests_cant": "It is about all paths of all nested values at once.", "anchors": ["lib/prelude.eu: update-value, update, alter, update-value-or, set-value, tongue, merge-at, select, dissoc, sort-keys, lookup-path, lookup-alts, lookup-across"]}
{"id": "C119", "title": "`deep-find` finds all, and its paths lead there", "statement": "`deep-find` gives just the values of the key in all blocks at any depth, in lists too; `deep-find-paths` gives, in the same order, paths at which `lookup-path` finds them, each once.", "quantifier": "all nested values, all keys", "why_tests_cant": "It is about values nested to any depth.", "anchors": ["lib/prelude.eu: deep-fold, deep-find, deep-find-paths, lookup-path"]}
{"id": "C120", "title": "A query gives what its pattern fits", "statement": "`deep-query` gives the values at the paths that fit the pattern, each once: `*` matches one level, `**` any depth, and a bare key is that key at any depth.", "quantifier": "all patterns, all nested values", "why_tests_cant": "It is about all patterns and values nested to any depth.", "anchors": ["lib/prelude.eu: deep-query-fold, deep-query, deep-query-paths"]}
{"id": "C121", "title": "`match?` is true of just the values that are as the pattern says", "statement": "`match?` is true if and only if a block has each key of the pattern with a value that matches, a list is as long and matches at each place, a function says so, or a value is equal; keys that are not in the pattern do not matter.", "quantifier": "all patterns, all values", "why_tests_cant": "It is about patterns and values nested to any depth.", "anchors": ["lib/prelude.eu: match?"]}
{"id": "C122", "title": "`parse-args` reads just the command lines made of known options", "statement": "`parse-args` gives a result if and only if the arguments are known options with their values, clusters of short flags, and other arguments; the result has the keys of the defaults in their order with what was set last, and `args`. It fails if and only if there is an option that is not known, help is asked for, or the last option lacks its value, and the error says which.", "quantifier": "all lists of arguments, all blocks of defaults with different keys and short names", "why_tests_cant": "It says that nothing else is read, of all lists of arguments.", "anchors": ["lib/prelude.eu: parse-args, process-one, process-long, process-short-chars, resolve-pending, set-opt"]}
{"id": "C123", "title": "All that is written in the arguments is found in the result", "statement": "The text after `--key=` or in the argument after `--key` is the value of the option, if it is not set again later; an argument that is no option is in `args`.", "quantifier": "all values, with all arguments before and after", "why_tests_cant": "It is about all values among all arguments.", "anchors": ["lib/prelude.eu: parse-args, process-long, process-one"]}
{"id": "C124", "title": "Options keep the kind of their defaults", "statement": "After `parse-args` a flag is its default or `true`, an option whose default is a number is a number, and any other is a text or its default.", "quantifier": "all lists of arguments, all options", "why_tests_cant": "It is about all arguments.", "anchors": ["lib/prelude.eu: parse-args, coerce-value, is-flag, set-opt"]}
{"id": "C125", "title": "Unification gives the most general solution, or there is none", "statement": "When the checker unifies the types of parameters and arguments, the substitution leaves just the choices of types for variables that make each pair the same (a literal counting as its base type and `NonEmpty` as `List`); if it fails, no choice makes them the same; and a quantified type unifies with what its instances unify with.", "quantifier": "all lists of pairs of types, all choices of types for variables", "why_tests_cant": "It is about all choices of types at once.", "anchors": ["src/core/typecheck/unify.rs: unify, apply_subst, bind_var, occurs, freshen_forall", "src/core/typecheck/types.rs: kind_of"]}
{"id": "C126", "title": "Unification comes to an end", "statement": "Unifying pairs of types one after the other comes to an end with a substitution or an error, and the substitution can be applied to any type.", "quantifier": "all lists of pairs of types", "why_tests_cant": "A test cannot show that something always ends.", "anchors": ["src/core/typecheck/unify.rs: unify, apply_subst, occurs"]}
{"id": "C127", "title": "Unification does not depend on which type comes first", "statement": "If two types unify, so they do the other way round, and the choices that are left are the same.", "quantifier": "all pairs of types", "why_tests_cant": "It is about all pairs of types.", "anchors": ["src/core/typecheck/unify.rs: unify"]}
{"id": "C128", "title": "Lenses obey the lens laws", "statement": "For a lens (`at`, `ix`, `item`, a path `‹…›`, or a composition): `view` gives what stands at the focus; after `over` the focus has the new value and what other paths find is as before; putting in what is there changes nothing; of two values put in the second stays; and a lens with nothing at its focus is an error of `over` as of `view`.", "quantifier": "all lenses made of keys and indices of any depth, all data, all functions given to `over`", "why_tests_cant": "The laws are about all data, all paths and all functions; the tests in the file try a few of each.", "anchors": ["lib/lens.eu: at, ix, item, view, over, to-list-of, ‹xs›", "lib/prelude.eu: alter-value, update-nth, update-first"]}
{"id": "C129", "title": "Traversals change and collect each focus once, in order", "statement": "`over` with `each` changes each element and with `filtered` each that matches, `to-list-of` collects them in order, and of composed optics the foci of the second within each focus of the first; two changes one after the other are one; a change that leaves each focus as it is leaves the data as they are; `view` of a traversal is an error.", "quantifier": "all optics of the library in any composition, all data, all functions", "why_tests_cant": "Compositions are without number, and the laws are about all functions.", "anchors": ["lib/lens.eu: each, filtered, each-element, filtered-elements, over, to-list-of, view"]}
{"id": "C130", "title": "`parts-of` is a lens on the list of foci", "statement": "`view` of `parts-of` gives the list of foci; after `over` the foci have the values of the new list, in order; putting back the list changes nothing; too few or too many values are an error.", "quantifier": "all traversals, all data, all functions on lists", "why_tests_cant": "It is about all traversals and lists of all lengths; the tests only put as many values as there are foci.", "anchors": ["lib/lens.eu: parts-of"]}
{"id": "C131", "title": "The monads of the library obey the monad laws", "statement": "For `let`, `for`, `state`, `random` and `do`: binding a returned value is applying the function, binding `return` changes nothing, and nested binds may be regrouped; and running a state action gives a block with a value and a state.", "quantifier": "all actions, values, functions and states", "why_tests_cant": "The laws are about all functions and actions.", "anchors": ["lib/prelude.eu: monad, let, for, random-bind, random-ret", "lib/state.eu: state-bind, state-ret", "lib/do.eu: do-bind, do-ret"]}
{"id": "C132", "title": "Derived combinators run their actions once and in order", "statement": "`map`, `then`, `join`, `sequence`, `map-m` and `filter-m` do what they do in any monad: `sequence` runs each action once, in order, and collects the values; of state actions each starts from the state which the one before left; of lists it gives all ways to take one of each; actions without effect come to plain `map` and `filter`.", "quantifier": "all monads which obey the laws, all lists of actions", "why_tests_cant": "They are made for any monad and lists of any length.", "anchors": ["lib/prelude.eu: monad"]}
{"id": "C133", "title": "State actions change what they say, and lifting keeps them apart", "statement": "After `state.put` or `=!` the key has the value and other keys what they had; `get` and `query` leave the state; in `do`, state actions leave the seed and random actions the state, they may be swapped, and lifting actions one by one is lifting them together.", "quantifier": "all states, keys, values and actions", "why_tests_cant": "It is about all states and actions.", "anchors": ["lib/state.eu: state-get, state-put, state-modify, state-query, state-lift, set-at, mod-at", "lib/do.eu: do-lift-io, do-lift-state, do-lift-random"]}
{"id": "C134", "title": "A monadic block runs its steps in order", "statement": "`{ :m a: ma b: mb }.e` is `m.bind(ma, λa. m.bind(mb, λb. m.return(e)))`: each step sees the names of the steps before it, for its own name and later ones what they stand for outside, and all steps use the monad `m` as it is where the block stands. So with `let` it is a row of definitions, and with `for` the list of results for all choices.", "quantifier": "all monads, all steps with any bodies and names, all surroundings", "why_tests_cant": "Names, bodies and monads are unlimited, and the mistake shows only for certain names.", "anchors": ["src/core/desugar/rowan_ast.rs: desugar_monadic_block, desugar_return_chain, wrap_with_type_hint"]}
{"id": "C135", "title": "A monadic block without return expression reports its names", "statement": "`{ :m a: ma _: mb }` runs its steps in order and returns a block of all names but `_`, each once, in the order in which they first stand, each with its last value. A block without steps is an error.", "quantifier": "all monads, steps and surroundings", "why_tests_cant": "Names may repeat and steps shadow each other in any way.", "anchors": ["src/core/desugar/rowan_ast.rs: desugar_monadic_block_implicit"]}
{"id": "C136", "title": "Tagged blocks are read as what they are", "statement": "A block is monadic if its tag names a known monad, by a symbol, by `monad`, `namespace`, or `bind` and `return`; a block with any other tag is a plain block; the return expression is the one element after the dot; steps with parameters are functions; and reading a row of elements never panics.", "quantifier": "all metadata, all rows of elements", "why_tests_cant": "Blocks may stand anywhere in rows of any length.", "anchors": ["src/core/desugar/rowan_ast.rs: extract_block_monad_spec_from_raw, desugar_rowan_soup_inner, extract_declaration_name"]}
{"id": "C137", "title": "validate accepts exactly the data of the type", "statement": "`validate(spec, data)` is the empty list if and only if the data are of the type: lists of elements, tuples and lists with a head, records with required and optional fields, closed or open, unions, optional values, literals and functions.", "quantifier": "all types and all data, nested to any depth", "why_tests_cant": "Types and data nest without limit.", "anchors": ["lib/contract.eu: validate", "src/eval/stg/typedata.rs: type_to_rcexpr"]}
{"id": "C138", "title": "Violations stand where they say", "statement": "The path of each violation leads to a value in the data, and what the violation says is true of that value: its type is the one found, the field is missing, the keys are there and not in the type, the list has that length. Values under keys which the type does not name do not matter; a closed record reports all keys it does not know at once.", "quantifier": "all types and all data", "why_tests_cant": "Types and data nest without limit.", "anchors": ["lib/contract.eu: validate, type-name, path-key, path-index"]}
{"id": "C139", "title": "ensure returns the data or raises all violations", "statement": "`ensure(spec, data)` is the data unchanged if they are of the type, and else raises all violations which `validate` finds.", "quantifier": "all types and all data", "why_tests_cant": "It is about all data.", "anchors": ["lib/contract.eu: ensure"]}
