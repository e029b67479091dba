{
 "claims": [
  {
   "property": "C01",
   "status": "partial",
   "theorems": [
    "Verif.Shunt.order_preserved_partial",
    "Verif.Shunt.order_not_preserved",
    "Verif.Shunt.order_not_preserved_prefix_prefix",
    "Verif.Shunt.minus_after_times_rejected",
    "Verif.Shunt.prefixOk_of_no_prefix"
   ],
   "note": "The property fails in the code: x = y * ∸ z is read as (x * y) = (∸ z). Proved for every expression in which no prefix operator directly follows an infix or prefix operator that binds at least as tightly (all expressions without prefix operators included); negation proved on prelude operators."
  },
  {
   "property": "C02",
   "status": "partial",
   "theorems": [
    "Verif.Shunt.grouped_reading_exists_unique",
    "Verif.Shunt.shunt_finds_reading_partial",
    "Verif.Shunt.shunt_finds_reading_of_no_prefix"
   ],
   "note": "Same side condition as C01; existence and uniqueness of the reading is unconditional."
  },
  {
   "property": "C03",
   "status": "partial",
   "theorems": [
    "Verif.Shunt.shunt_terminates",
    "Verif.Shunt.shunt_no_panic",
    "Verif.Shunt.cookSoup_total",
    "Verif.Shunt.cookSoup_succeeds_partial",
    "Verif.Shunt.formApply_no_panic_partial",
    "Verif.Shunt.call_then_tight_operator_panics"
   ],
   "note": "Termination and no empty-output panic for all non-empty soups. The panic in form_apply is reachable: f(x) ^^ y with a precedence above 90 (negation proved); excluded when non-prefix precedences are at most 90."
  },
  {
   "property": "C04",
   "status": "proved",
   "theorems": [
    "Verif.Shunt.fillGaps_complete",
    "Verif.Shunt.fillGaps_minimal",
    "Verif.Shunt.fillGaps_id",
    "Verif.Shunt.fillGaps_fails"
   ],
   "note": ""
  },
  {
   "property": "C05",
   "status": "proved",
   "theorems": [
    "Verif.Core.open_close",
    "Verif.Core.close_open",
    "Verif.Core.openLet_closeLet",
    "Verif.Core.openLam_closeLam",
    "Verif.Core.closeLet_openLet",
    "Verif.Core.close_captures"
   ],
   "note": "Opening after closing is the identity for all expressions, depths and name lists; closing after opening needs the references to carry the slot names and the names to be distinct and not free, which is what the binder invariant says. Positions and demand annotations are not modelled."
  },
  {
   "property": "C06",
   "status": "proved",
   "theorems": [
    "Verif.Core.close_ws",
    "Verif.Core.open_ws",
    "Verif.Core.closeLet_ws",
    "Verif.Core.closeLam_ws",
    "Verif.Core.succ_ws",
    "Verif.Core.pred_ws",
    "Verif.Core.pred_succ",
    "Verif.Core.substFree_ws",
    "Verif.Core.bindFree_ws",
    "Verif.Core.rebody_ws",
    "Verif.Core.mergeIn_ws",
    "Verif.Core.dynamise_ws",
    "Verif.Core.dynamise_means",
    "Verif.Core.substFree_open_false",
    "Verif.Core.dynamise_open_false"
   ],
   "note": "Well-scopedness is preserved by the binding operations, merging and dynamise. Substitution and dynamise need closed arguments: two negation theorems show that with open ones the result refers to the wrong binder, since substs does not shift and dynamise shifts twice."
  },
  {
   "property": "C07",
   "status": "proved",
   "theorems": [
    "Verif.Split.splitLetrecs_preserves",
    "Verif.Split.splitLetrecs_repeated"
   ],
   "note": "For every order in which the hash set of names is met, splitting never panics and the result unfolds to the same infinite tree, with the same bindings. Distinct names within a group are required; the second theorem shows that with repeated names a reference changes its target."
  },
  {
   "property": "C08",
   "status": "proved",
   "theorems": [
    "Verif.Tarjan.tarjan_correct"
   ],
   "note": "Total, a partition of the nodes, two nodes together exactly when mutually reachable, every component after those it depends on, no empty component; for all graphs."
  },
  {
   "property": "C09",
   "status": "partial",
   "theorems": [
    "Verif.Flat.reflatten_preserves_partial",
    "Verif.Flat.reflatten_shadow",
    "Verif.Flat.reflatten_preserves_false"
   ],
   "note": "Proved for all programs whose chains of groups bind each name once and bind no free name; with an inner group binding a name again the pass changes the reference (proved on a concrete program), so the full statement is false of the code."
  },
  {
   "property": "C10",
   "status": "proved",
   "theorems": [
    "Verif.Dce.compress_preserves",
    "Verif.Dce.compress_total",
    "Verif.Dce.compress_ws",
    "Verif.Dce.compress_names"
   ],
   "note": "For every well scoped expression: the compressed expression unfolds to the same infinite tree (same binding expression for each reference), stays well scoped, keeps exactly the bindings not eliminated in their order, and compression fails exactly when a live part still refers to an eliminated slot."
  },
  {
   "property": "C11",
   "status": "proved",
   "theorems": [
    "Verif.Heap.live_never_overlap",
    "Verif.Heap.live_in_bounds",
    "Verif.Heap.copies_write_over_nothing",
    "Verif.Heap.collect_keeps"
   ],
   "note": "For all histories of allocations and (evacuating) collections with arbitrary survivor sets; block choice by floating-point score left arbitrary."
  },
  {
   "property": "C12",
   "status": "proved",
   "theorems": [
    "Verif.Heap.alloc_succeeds",
    "Verif.Heap.emergency_never_reached",
    "Verif.Heap.emergency_sweep_unsafe"
   ],
   "note": "Assumes the OS supplies blocks. emergency_sweep_unsafe: the (unreachable) emergency sweep would hand out live space."
  },
  {
   "property": "C13",
   "status": "proved",
   "theorems": [
    "Verif.Gc.marked_iff_reachable",
    "Verif.Gc.mark_terminates"
   ],
   "note": "For every typed machine state (each pointer leads to an allocated object of its declared kind), the trace terminates and marks exactly the objects reachable from all root kinds."
  },
  {
   "property": "C14",
   "status": "proved",
   "theorems": [
    "Verif.Gc.evacuation_preserves_graph",
    "Verif.Gc.reachable_after_evacuation",
    "Verif.Gc.evacuation_terminates"
   ],
   "note": "For any choice of candidate blocks, the object graph after evacuation and pointer update is the graph before with addresses renamed injectively. Evacuation is modelled after the trace rather than interleaved with it; where copies go is the subject of C11."
  },
  {
   "property": "C15",
   "status": "proved",
   "theorems": [
    "Verif.Env.get_spec",
    "Verif.Env.get_isSome",
    "Verif.Env.update_spec",
    "Verif.Env.update_isSome",
    "Verif.Env.saturate_spec",
    "Verif.Env.branch_binds",
    "Verif.Env.branch_shares",
    "Verif.Env.branch_exists",
    "Verif.Env.empty_table_shifts"
   ],
   "note": "Frames as immutable chains over a store of arrays; covers lookup, update, function call frames and the sharing of constructor frames by case branches."
  },
  {
   "property": "C16",
   "status": "proved",
   "theorems": [
    "Verif.Bc.encode_means_program",
    "Verif.Bc.node_reads",
    "Verif.Bc.span_256_is_lost",
    "Verif.Bc.args_256_are_lost",
    "Verif.Bc.lambda_zero_is_value",
    "Verif.Bc.sample_fits"
   ],
   "note": "Whole encoder and the machine's node reader; reading relation Reads in BcSpec. Hypotheses are the format's limits (8-bit counts, tags spanning at most 255, 32-bit indices) and the driver's size check; span_256_is_lost and args_256_are_lost show the limits are needed."
  },
  {
   "property": "C17",
   "status": "proved",
   "theorems": [
    "Verif.Bc.append_is_encode",
    "Verif.Bc.overrides_mean_program",
    "Verif.Bc.prelude_is_prefix",
    "Verif.Bc.no_overrides"
   ],
   "note": "append_is_encode is the literal equality; overrides_mean_program covers the entry point the driver uses for the embedded prelude image."
  },
  {
   "property": "C18",
   "status": "proved",
   "theorems": [
    "Verif.Smid.flags_round_trip",
    "Verif.Smid.flags_fits",
    "Verif.Smid.flags_injective"
   ],
   "note": "All arities below 256 and annotations below 2^32."
  },
  {
   "property": "C19",
   "status": "partial",
   "theorems": [
    "Verif.Smid.step_stable",
    "Verif.Smid.history_stable",
    "Verif.Smid.handle_denotes_partial",
    "Verif.Smid.handle_fresh_partial",
    "Verif.Smid.handle_denotes_unbounded_false",
    "Verif.Smid.foreign_never_resolves",
    "Verif.Smid.slot_identity",
    "Verif.Smid.user_frames_are_users"
   ],
   "note": "Stability and the foreign-range and slot claims hold without bound. That a fresh handle denotes its position needs fewer than 2^31 handles in use; the negation without the bound is proved on a witness."
  },
  {
   "property": "C20",
   "status": "proved",
   "theorems": [
    "Verif.Smid.compress_lossless",
    "Verif.Smid.compress_patterns",
    "Verif.Smid.compress_greedy",
    "Verif.Smid.compressTrace_short",
    "Verif.Smid.compressTrace_lossless"
   ],
   "note": "All traces over any type with decidable equality."
  },
  {
   "property": "C21",
   "status": "partial",
   "theorems": [
    "Verif.Arith.div_mod_floor_partial",
    "Verif.Arith.div_mod_errors",
    "Verif.Arith.quot_rem_trunc_partial",
    "Verif.Arith.mixed_division_inexact",
    "Verif.Arith.floored_saturates"
   ],
   "note": "Floor division and modulo proved exact whenever both operands fit i64 or both fit u64; negative witnesses proved for operands that go through doubles (u64 above i64::MAX with a negative) and for the saturating conversion of 2^63."
  },
  {
   "property": "C22",
   "status": "partial",
   "theorems": [
    "Verif.Arith.add_exact_partial",
    "Verif.Arith.sub_exact_partial",
    "Verif.Arith.mul_exact_partial",
    "Verif.Arith.pow_exact_partial",
    "Verif.Arith.ofInt_ok",
    "Verif.Arith.mixed_add_inexact",
    "Verif.Arith.pow_falls_back"
   ],
   "note": "For operands both in i64 or both in u64 the result is exact or a range error. The code violates the property for mixed operands (doubles) and for overflowing powers (powf fallback): both proved on witnesses."
  },
  {
   "property": "C23",
   "status": "partial",
   "theorems": [
    "Verif.Arith.trichotomy",
    "Verif.Arith.lt_sound",
    "Verif.Arith.lt_complete",
    "Verif.Arith.lt_trans",
    "Verif.Arith.numEq_refl",
    "Verif.Arith.numEq_symm",
    "Verif.Arith.numEq_iff",
    "Verif.Arith.numEq_not_transitive",
    "Verif.Arith.order_by_value_partial"
   ],
   "note": "Order laws proved for all valid numbers; equality is not transitive near 2^53 (proved), so the full property is false of the code."
  },
  {
   "property": "C24",
   "status": "partial",
   "theorems": [
    "Verif.Rand.advance_injective",
    "Verif.Rand.period",
    "Verif.Rand.outputs_distinct",
    "Verif.Rand.float_range",
    "Verif.Rand.streamFloat_eq",
    "Verif.Rand.int_range_partial",
    "Verif.Rand.int_negative",
    "Verif.Rand.int_float_bound",
    "Verif.Rand.split_fst",
    "Verif.Rand.split_injective",
    "Verif.Rand.seed_injective_partial"
   ],
   "note": "Proved except integer draws with bounds above 2^63, where the code gives negative numbers (int_negative)."
  },
  {
   "property": "C25",
   "status": "partial",
   "theorems": [
    "Verif.Data.eq_refl",
    "Verif.Data.eq_symm",
    "Verif.Data.eq_iff_same_partial",
    "Verif.Data.eq_trans_partial",
    "Verif.Data.eq_boxed_kind",
    "Verif.Data.eq_not_transitive_blocks",
    "Verif.Data.eq_not_transitive_numbers",
    "Verif.Data.eq_not_transitive_types"
   ],
   "note": "Reflexive and symmetric for all data. Transitivity is false of the code: three independent witnesses are proved. On data without those three shapes, == is proved to mean the same abstract value."
  },
  {
   "property": "C26",
   "status": "partial",
   "theorems": [
    "Verif.Data.merge_isSome",
    "Verif.Data.merge_keys",
    "Verif.Data.merge_keys'",
    "Verif.Data.merge_value",
    "Verif.Data.merge_noRepeats",
    "Verif.Data.merge_assoc",
    "Verif.Data.merge_empty_partial",
    "Verif.Data.merge_empty_drops",
    "Verif.Data.merge_meta"
   ],
   "note": "Everything proved for all blocks except that {} is an identity, which is false for blocks with repeated keys (witness proved) and proved for the others."
  },
  {
   "property": "C27",
   "status": "partial",
   "theorems": [
    "Verif.Data.lookup_merge",
    "Verif.Data.lookup_merge_partial",
    "Verif.Data.lookup_merge_repeated",
    "Verif.Data.lookupOr_total",
    "Verif.Data.lookup_missing",
    "Verif.Data.lookup_mem",
    "Verif.Data.safeLookup_spec"
   ],
   "note": "For blocks with repeated keys lookup takes the first entry and merge keeps the last, so the statement fails there (witness proved); lookup_merge gives the exact answer for all blocks."
  },
  {
   "property": "C28",
   "status": "partial",
   "theorems": [
    "Verif.Data.deepMerge_nonblock",
    "Verif.Data.deepMerge_keys",
    "Verif.Data.deepMerge_value",
    "Verif.Data.deepMerge_mergeWith",
    "Verif.Data.mergeWith_value",
    "Verif.Data.deepMerge_assoc_partial",
    "Verif.Data.deepMerge_not_assoc"
   ],
   "note": "Associativity is false of the code (witness proved); proved whenever no path has block, non-block, block in the three arguments."
  },
  {
   "property": "C29",
   "status": "proved",
   "theorems": [
    "Verif.Cache.hashed_bytes_determine_inputs",
    "Verif.Cache.fresh_iff",
    "Verif.Cache.used_only_if_same_inputs",
    "Verif.Cache.same_inputs_are_used",
    "Verif.Cache.unverifiable_never_used"
   ],
   "note": "SHA-256 is an arbitrary 32-byte-valued function, so 'used only if built from the same inputs' is stated up to a hash collision, which the theorem exhibits; that distinct inputs give distinct hashed bytes is unconditional for inputs shorter than 2^64 bytes."
  },
  {
   "property": "C30",
   "status": "proved",
   "theorems": [
    "Verif.Cache.serialize_order_free",
    "Verif.Cache.serialize_round_trip",
    "Verif.Cache.takeLen_putLen",
    "Verif.Cache.takeStr_putStr"
   ],
   "note": "Keys are byte strings in the order Rust gives str; values are any type whose own codec round-trips. The postcard wire format is modelled from its documentation (it is a dependency, not part of the repository)."
  },
  {
   "property": "C31",
   "status": "proved",
   "theorems": [
    "Verif.Escape.decode_ok",
    "Verif.Escape.decode_error",
    "Verif.Escape.denotes_unique",
    "Verif.Escape.decode_longEscape",
    "Verif.Escape.decode_plain",
    "Verif.Escape.decode_append"
   ],
   "note": "decode accepts exactly the documented grammar (inductive Denotes) and yields exactly the denoted string; each rejection points at a malformed escape of the stated kind; every string has an all-ASCII escaped form that decodes to it. Totality (no crash) is by construction: from_str_radix overflow and invalid code points are explicit results in the model."
  },
  {
   "property": "C32",
   "status": "partial",
   "theorems": [
    "Verif.Input.full_form",
    "Verif.Input.named_form",
    "Verif.Input.format_form",
    "Verif.Input.bare_form",
    "Verif.Input.every_text_has_a_form",
    "Verif.Input.crashes_iff",
    "Verif.Input.parsing_can_crash",
    "Verif.Input.never_crashes_partial",
    "Verif.Input.drive_path_is_file",
    "Verif.Input.special_locators",
    "Verif.Input.brackets_ignored",
    "Verif.Input.unclosed_bracket_loses_character",
    "Verif.Input.file_input_round_trip",
    "Verif.Input.resource_input_becomes_file",
    "Verif.Input.extension_spec",
    "Verif.Input.hidden_file_no_extension",
    "Verif.Input.format_inferred"
   ],
   "note": "Recovery of the parts is proved for every text in each of the four forms, which are shown to be exhaustive. 'Never crashes' is false of the code: crashes_iff characterises exactly the texts that panic (a locator that is '[' alone, or opens with '[' and ends in a non-ASCII character), so the no-crash part is proved only for locators not opening with '['. The url crate's parser is a parameter."
  },
  {
   "property": "C33",
   "status": "partial",
   "theorems": [
    "Verif.Import.toposort_iff_acyclic",
    "Verif.Import.toposort_order",
    "Verif.Import.accepted_is_acyclic_and_complete",
    "Verif.Import.accepted_iff_acyclic_partial",
    "Verif.Import.errors_are_justified_partial",
    "Verif.Import.same_locator_wrong_file",
    "Verif.Import.renamed_input_not_reported"
   ],
   "note": "Whatever the loader sees, an accepted set of imports has no file transitively importing itself (by locator, with the texts actually read) and unit inputs are exactly the locators transitively imported, once each. The converse, acyclic and readable implies accepted, and that errors are justified, are proved when a locator leads to the same text wherever it is met. Without that the property fails of the code: the same relative locator in two directories is taken for one file, and an input repeated under a name is not reported under it; both proved on concrete worlds. Git locators are not modelled; petgraph toposort and Bfs are transcribed from the library."
  },
  {
   "property": "C34",
   "status": "partial",
   "theorems": [
    "Verif.Lex.tokens_total",
    "Verif.Lex.tokens_keep_nonspace",
    "Verif.Lex.tokens_lossless_partial",
    "Verif.Lex.tokens_contiguous",
    "Verif.Lex.tokens_lossy",
    "Verif.Lex.kinds_allowed"
   ],
   "note": "Lexing always ends, with tokens in order; every non-whitespace character is in the text of a token; sources without whitespace inside string interpolations are tiled exactly. The full statement is false: whitespace inside an interpolation is dropped (tokens_lossy), which shifts the positions of the syntax tree."
  },
  {
   "property": "C35",
   "status": "partial",
   "theorems": [
    "Verif.Subtype.subtype_reflexive",
    "Verif.Subtype.subtype_rules_partial",
    "Verif.Subtype.subtype_depth_partial",
    "Verif.Subtype.subtype_transitive_partial",
    "Verif.Subtype.not_transitive_optional",
    "Verif.Subtype.not_transitive_dict",
    "Verif.Subtype.not_transitive_open",
    "Verif.Subtype.subtype_not_transitive"
   ],
   "note": "Reflexivity holds of all types. Transitivity is false of the code on fully known types with optional fields or Dict; three witnesses are proved. It is proved for all fully known types in which no record has an optional field and Dict does not occur."
  },
  {
   "property": "C36",
   "status": "partial",
   "theorems": [
    "Verif.Scope.SimpleEnv.get_innermost",
    "Verif.Scope.SimpleEnv.get_missing",
    "Verif.Scope.SimpleEnv.pop_push",
    "Verif.Scope.SimpleEnv.insert_spec",
    "Verif.Scope.DefEnv.pushKeys_get",
    "Verif.Scope.DefEnv.encounter_get",
    "Verif.Scope.distribute_marks",
    "Verif.Scope.distribute_with_prelude_marks",
    "Verif.Scope.innermost_unique",
    "Verif.Scope.plain_definition_does_not_hide_fixity",
    "Verif.Scope.innermost_respected_partial"
   ],
   "note": "Name environments return the innermost frame holding the name; every use of an operator is marked with the metadata of the innermost block defining it as an operator. The full property is false of the code: an inner plain definition does not hide an outer operator's fixity (plain_definition_does_not_hide_fixity). innermost_respected_partial is the part that holds."
  },
  {
   "property": "C37",
   "status": "partial",
   "theorems": [
    "Verif.Ana.anonymous_pattern",
    "Verif.Ana.numbered_pattern",
    "Verif.Ana.section_pattern",
    "Verif.Ana.mixed_rejected",
    "Verif.Ana.pattern_order_free",
    "Verif.Ana.pattern_covers",
    "Verif.Ana.negative_number_panics",
    "Verif.Ana.cook_is_specified_partial",
    "Verif.Ana.every_anaphor_is_a_parameter",
    "Verif.Ana.params_in_order_of_appearance",
    "Verif.Ana.sections_in_order_of_appearance",
    "Verif.Ana.bare_anaphor_leaks",
    "Verif.Ana.block_scope_depends_on_order"
   ],
   "note": "Parameter lists are proved for every set of anaphora: anonymous in order of location, numbered at their own position with gaps filled, sections in order, mixtures rejected, independent of hash-map order. Cooking is proved to make exactly the specified functions for programs without block anaphora whose expression anaphora are items of soups. Negations: a bare anaphor leaks into the next function; which block becomes a function depends on declaration order; a negative number panics. Missing: block anaphora in general."
  },
  {
   "property": "C38",
   "status": "proved",
   "theorems": [
    "Verif.Shunt.splitAtCat_items"
   ],
   "note": ""
  },
  {
   "property": "C39",
   "status": "partial",
   "theorems": [
    "Verif.Rand.shuffle_perm",
    "Verif.Rand.sample_sub",
    "Verif.Rand.choice_mem",
    "Verif.Rand.vecSample_sub",
    "Verif.Rand.vecShuffle_perm",
    "Verif.Rand.vecShuffle_empty",
    "Verif.Rand.preludeVecShuffle_perm",
    "Verif.Rand.preludeVecSample_sub"
   ],
   "note": "Fails for the empty vec (vecShuffle_empty): the intrinsic underflows on any float, and the prelude's vec.shuffle asks for -1 floats."
  },
  {
   "property": "C40",
   "status": "partial",
   "theorems": [
    "Verif.Rand.slice_get",
    "Verif.Rand.slice_split",
    "Verif.Rand.nth_get_partial",
    "Verif.Rand.nth_negative"
   ],
   "note": "Negative indices give the first element instead of an error (nth_negative)."
  },
  {
   "property": "C41",
   "status": "partial",
   "theorems": [
    "Verif.Sets.add_spec",
    "Verif.Sets.remove_spec",
    "Verif.Sets.union_spec",
    "Verif.Sets.intersect_spec",
    "Verif.Sets.diff_spec",
    "Verif.Sets.size_union",
    "Verif.Sets.sorted_spec",
    "Verif.Sets.toList_deterministic",
    "Verif.Sets.fromList_contains_partial",
    "Verif.Sets.contains_conflates"
   ],
   "note": "Everything proved except membership of integers beyond 2^53, which are conflated (contains_conflates)."
  },
  {
   "property": "C42",
   "status": "proved",
   "theorems": [
    "Verif.Smid.curateTrace_primary",
    "Verif.Smid.curateStack_primary",
    "Verif.Smid.curateStack_primary_none",
    "Verif.Smid.curateTrace_agrees",
    "Verif.Smid.curate_frames",
    "Verif.Smid.curate_covers",
    "Verif.Smid.curateWithEnv_frames"
   ],
   "note": "Any source map reachable by the modelled calls, any trace and any budget. Agreement with the direct search assumes no combinator is declared to be user code, as the blame table never does."
  },
  {
   "property": "C43",
   "status": "proved",
   "theorems": [
    "Verif.Core.rebody_means",
    "Verif.Core.resolve_means",
    "Verif.Core.internal_not_meant",
    "Verif.Core.mergeIn_ws"
   ],
   "note": "The new body is placed unchanged except that each free name is bound to the binding it means by an independent specification (Means); hypothesis: free names of the first unit are not names it binds around its body."
  },
  {
   "property": "C44",
   "status": "partial",
   "theorems": [
    "Verif.Parse.parse_terminates",
    "Verif.Parse.parse_keeps_tokens_partial",
    "Verif.Parse.parse_outcomes_partial",
    "Verif.Parse.backtick_panics",
    "Verif.Parse.metadata_panics",
    "Verif.Parse.spaced_colons_panic",
    "Verif.Parse.paren_after_colon_panics",
    "Verif.Parse.open_bracket_panics"
   ],
   "note": "Termination is proved for every token sequence. Crash freedom and token preservation, from source text to tree, are proved for every text in which no colon is directly followed by a backtick, a name or an opening bracket (or, after white space, by another single colon) and no Unicode bracket is opened; with Unicode brackets the only possible crash is an unclosed bracket at end of text. Outside those hypotheses the property is false: five concrete texts on which the parser panics are proved to do so. The hypothesis is sufficient but not necessary."
  },
  {
   "property": "C45",
   "status": "proved",
   "theorems": [
    "Verif.Lex.apply_touches",
    "Verif.Lex.plain_open_apart"
   ],
   "note": "For any classification of characters that treats a handful of ASCII characters as Unicode does (CharClass.Sane)."
  },
  {
   "property": "C46",
   "status": "partial",
   "theorems": [
    "Verif.StrPat.plain_roundtrip_partial",
    "Verif.StrPat.raw_roundtrip_partial",
    "Verif.StrPat.c_roundtrip_partial",
    "Verif.StrPat.plain_brace_lost",
    "Verif.StrPat.c_interpolation_lost",
    "Verif.StrPat.c_escape_error"
   ],
   "note": "Round trip for literals in which no brace (for c-strings: or backslash) directly follows an interpolation or, in c-strings with interpolations, begins the literal. The full statement is false in those cases: the text \"{x}}}\" loses its brace, c\"\\\\{x}\" loses the interpolation and c\"{x}\\}\" is rejected. Dotted interpolation targets are not modelled."
  },
  {
   "property": "C47",
   "status": "partial",
   "theorems": [
    "Verif.Subtype.subtype_sound_partial",
    "Verif.Subtype.subtype_unsound_optional"
   ],
   "note": "Proved for fully known types without optional fields and Dict, for every interpretation of the values; with optional fields the check is unsound, proved on a witness."
  },
  {
   "property": "C48",
   "status": "partial",
   "theorems": [
    "Verif.Prune.prune_total",
    "Verif.Prune.prune_preserves_partial",
    "Verif.Prune.prune_live",
    "Verif.Prune.eliminate_total",
    "Verif.Prune.eliminate_preserves_partial",
    "Verif.Prune.eliminate_clean",
    "Verif.Prune.self_fallback_pruned"
   ],
   "note": "Meaning is kept except for lookups whose fallback is the object variable itself: there the whole block is the result but members not looked up have been removed (self_fallback_pruned). Use counts and demand annotations are not modelled."
  },
  {
   "property": "C49",
   "status": "proved",
   "theorems": [
    "Verif.Eng.decode_keeps_program",
    "Verif.Eng.encode_decode_program",
    "Verif.Eng.overrides_decode_program",
    "Verif.Eng.bytes_show_program",
    "Verif.Eng.encode_image",
    "Verif.Eng.overrides_image"
   ],
   "note": "Proved for every program whose parts are within the format's limits and whose code passes the driver's size check (the same hypotheses as C16). Source locations of instructions (the smids table) are not modelled. The statement is about what each engine reads, not about what running gives."
  },
  {
   "property": "C50",
   "status": "partial",
   "theorems": [
    "Verif.Mach.machine_value_partial",
    "Verif.Mach.machine_error_partial",
    "Verif.Mach.means_unique",
    "Verif.Mach.machine_complete_partial",
    "Verif.Mach.engines_agree_partial",
    "Verif.Mach.plain_fair",
    "Verif.Mach.plain_value",
    "Verif.Mach.plain_complete_partial"
   ],
   "note": "Proved for every program and every run in which no intrinsic reads through a function (C52) and no direct call has zero arguments, up to the machine's own limits (partial applications beyond 16, intrinsics given something other than natives, the lookup node, which is not modelled). Errors other than black holes and these limits agree exactly. Intrinsics are arbitrary functions from natives to code. A condition on the text alone (no function whose body is a bare reference, no direct call without arguments) makes every run fair."
  },
  {
   "property": "C51",
   "status": "partial",
   "theorems": [
    "Verif.Mach.loop_genuine_partial",
    "Verif.Mach.holes_pending",
    "Verif.Mach.loop_genuine_uncopied_partial",
    "Verif.Mach.loop_false"
   ],
   "note": "False of the code in general: values under evaluation are copied when a constructor's fields are bound to a new frame, and the copy stays a black hole after the original is updated (loop_false, on a program that means a value). Proved for every run in which no black hole is copied, and for every stop at which the holes are those being evaluated."
  },
  {
   "property": "C52",
   "status": "partial",
   "theorems": [
    "Verif.Mach.prim_reads_function",
    "Verif.Mach.prim_refuses_function_partial"
   ],
   "note": "False of the code: an intrinsic given a function whose body is a bare reference reads the native the reference leads to (prim_reads_function). Proved for programs in which no function has a bare reference for a body."
  },
  {
   "property": "C53",
   "status": "proved",
   "theorems": [
    "Verif.Opt.optimise_total",
    "Verif.Opt.optimise_panics"
   ],
   "note": "For every well-formed tree. A branch on a tag that is no constructor's does bring the optimiser down (optimise_panics); the compiler makes none."
  },
  {
   "property": "C54",
   "status": "partial",
   "theorems": [
    "Verif.Opt.optimise_shows_partial",
    "Verif.Opt.optimise_value_partial",
    "Verif.Opt.optimise_back_partial",
    "Verif.Opt.optimise_forgets_tag",
    "Verif.Opt.optimise_renames_twice"
   ],
   "note": "False of the code in two ways: a case whose only alternative is a branch without fields no longer checks the constructor, so an error becomes a value (optimise_forgets_tag); the arguments of a constructor whose case is folded away are renamed twice, which changes the value (optimise_renames_twice). Proved: exact agreement, errors and divergence included, for every program without the first and in which the second is without effect; with the first, values are kept, and nothing is shown that the program does not show unless the program is in error on the way."
  },
  {
   "property": "C55",
   "status": "partial",
   "theorems": [
    "Verif.Opt.optimise_scoped_partial",
    "Verif.Opt.optimise_dangles"
   ],
   "note": "False of the code: literal lookups are not renamed when a let around them is removed (optimise_dangles). Proved for programs without literal lookups in which double renaming of constructor arguments is without effect."
  },
  {
   "property": "C56",
   "status": "partial",
   "theorems": [
    "Verif.Export.json_written_partial",
    "Verif.Export.toml_written_partial",
    "Verif.Export.yaml_written_partial",
    "Verif.Export.edn_written_partial",
    "Verif.Export.eu_written_partial",
    "Verif.Export.json_read_partial",
    "Verif.Export.toml_read_partial",
    "Verif.Export.yaml_read_partial",
    "Verif.Export.edn_read_partial",
    "Verif.Export.eu_read_partial",
    "Verif.Export.json_written_fails",
    "Verif.Export.json_read_fails",
    "Verif.Export.swapped_run",
    "Verif.Export.dropped_run",
    "Verif.Export.yaml_tag_lost",
    "Verif.Export.yaml_computed_refused",
    "Verif.Export.hidden_failure"
   ],
   "note": "False of the code: a field given as a list that is not two shown items loses the block around it or shifts the fields after it, without an error (json_written_fails, json_read_fails, swapped_run, dropped_run); tags on null, booleans, sets, vecs and arrays are lost (yaml_tag_lost); a computed scalar with a tag cannot be written (yaml_computed_refused); a hidden field that cannot be evaluated fails the run (hidden_failure). Proved both ways for every value without these (Good), for each of the five formats."
  },
  {
   "property": "C57",
   "status": "proved",
   "theorems": [
    "Verif.Export.json_all_or_nothing",
    "Verif.Export.yaml_all_or_nothing",
    "Verif.Export.toml_all_or_nothing",
    "Verif.Export.edn_all_or_nothing",
    "Verif.Export.eu_all_or_nothing"
   ],
   "note": "For every value, without restriction."
  },
  {
   "property": "C58",
   "status": "partial",
   "theorems": [
    "Verif.Export.text_written_partial",
    "Verif.Export.text_not_all_or_nothing"
   ],
   "note": "False of the code: lines are written as they come, so a run that fails has written those before the failure (text_not_all_or_nothing). The first half is proved for every value that the renderer treats as it should (Good, as in C56)."
  },
  {
   "property": "C59",
   "status": "partial",
   "theorems": [
    "Verif.Export.html_element_partial",
    "Verif.Export.html_root_refused",
    "Verif.Export.html_fails_silent",
    "Verif.Export.html_loses_content",
    "Verif.Export.html_empty"
   ],
   "note": "False of the code: contents without a block of attributes before them are lost (html_loses_content), and an empty list is accepted and writes nothing (html_empty). Proved: every element in the full form or of a tag only is written whole; root scalars and blocks are refused; a failed run writes nothing (for every value)."
  },
  {
   "property": "C60",
   "status": "partial",
   "theorems": [
    "Verif.Comp.compile_shows_partial",
    "Verif.Comp.compile_honest_partial",
    "Verif.Comp.compile_hasty"
   ],
   "note": "Proved in full (values, errors, no end) for every expression in which nothing is marked for forcing early. With marks: proved for everything but errors if what is marked is evaluated anyway (Honest); a mark that is wrong changes the program (compile_hasty). Left out: fused primitives, lookup nodes (both sides give the same error), inlinable intrinsics without arguments, and renderings other than headless."
  },
  {
   "property": "C61",
   "status": "proved",
   "theorems": [
    "Verif.Comp.compile_total",
    "Verif.Comp.compile_scoped"
   ],
   "note": "For every expression, lookups, fused primitives and all renderings included."
  },
  {
   "property": "C62",
   "status": "partial",
   "theorems": [
    "Verif.Comp.makes_shows_partial",
    "Verif.Comp.run_value_partial",
    "Verif.Comp.run_error_partial",
    "Verif.Comp.run_complete_partial"
   ],
   "note": "C60, C54 and C50 together, under the conditions of each: nothing marked for forcing, code on which the optimiser is sound, fair runs."
  },
  {
   "property": "C63",
   "status": "proved",
   "theorems": [
    "Verif.Dem.analyse_ends"
   ],
   "note": "For every expression, given signatures of intrinsics that speak of uses (Sound), as all in the table do."
  },
  {
   "property": "C64",
   "status": "proved",
   "theorems": [
    "Verif.Dem.analyse_bare",
    "Verif.Dem.analyse_means"
   ],
   "note": "For every expression; what is refused by the compiler (soup, argument tuples) is one opaque node."
  },
  {
   "property": "C65",
   "status": "partial",
   "theorems": [
    "Verif.Dem.analysed_shows_partial",
    "Verif.Dem.analysed_same_partial",
    "Verif.Dem.analysed_eager",
    "Verif.Dem.analysed_block",
    "Verif.Dem.analysed_function"
   ],
   "note": "False of the code: analysed_eager, analysed_block and analysed_function are programs that mean a value and fail when analysed and compiled (items of lists, fields of blocks and bodies of functions count as needed). Proved: the compiled program shows the same values if what is marked is evaluated anyway, and the same altogether if nothing is marked."
  },
  {
   "property": "C66",
   "status": "partial",
   "theorems": [
    "Verif.Dem.analysed_name",
    "Verif.Dem.analysed_same_partial"
   ],
   "note": "False of the code: analysed_name gives two programs that differ in the name of a function used nowhere, one of which fails. Proved: where no signature asks for forcing the program shows what it means, and names play no part in that."
  },
  {
   "property": "C67",
   "status": "proved",
   "theorems": [
    "Verif.Dem.analyse_recursive"
   ],
   "note": "The references are those the analysis sees: not those inside operator nodes, nor in arguments that a lambda called on the spot does not use."
  },
  {
   "property": "C68",
   "status": "proved",
   "theorems": [
    "Verif.Io.no_command",
    "Verif.Io.runs_denied",
    "Verif.Io.denied_or_same"
   ],
   "note": "For every language of values, schedule of collections and answer from outside. `io.fail` needs permission too only when it goes through an action, as the spec says."
  },
  {
   "property": "C69",
   "status": "proved",
   "theorems": [
    "Verif.Io.perform_sound",
    "Verif.Io.perform_does",
    "Verif.Io.perform_stops",
    "Verif.Io.runs_det",
    "Verif.Io.runs_append",
    "Verif.Io.left_unit",
    "Verif.Io.right_unit",
    "Verif.Io.assoc"
   ],
   "note": "The driver with its stash and a collector that may move everything at every run, against a big-step account of actions that has neither. Evaluation is a parameter (a function on values); that it gives back a return that the driver has built is asked for (Sound)."
  },
  {
   "property": "C70",
   "status": "partial",
   "theorems": [
    "Verif.Io.exec_partial",
    "Verif.Io.shell_partial",
    "Verif.Io.args_lost",
    "Verif.Io.args_empty",
    "Verif.Io.args_nul",
    "Verif.Io.stdin_null",
    "Verif.Io.timeout_default",
    "Verif.Io.parse_written"
   ],
   "note": "False of the code: the tail of a list of arguments is not evaluated, so a list that is not built yet loses its arguments silently (args_lost); a single empty argument is lost (args_empty); one with a NUL in it becomes two (args_nul); an input that reads null is lost (stdin_null). Proved for lists already built, without NUL, other than one empty text, and inputs neither empty nor null. Missing: everything outside those."
  },
  {
   "property": "C71",
   "status": "partial",
   "theorems": [
    "Verif.Pipe.limited_partial",
    "Verif.Pipe.result_own",
    "Verif.Pipe.result_same",
    "Verif.Pipe.stuck",
    "Verif.Pipe.cat_stuck",
    "Verif.Pipe.race"
   ],
   "note": "False of the code: the clock starts only after all of the input is written, so with `cat` and more input than two pipes hold nothing ever moves again (stuck, cat_stuck); and a command that does not read its input may succeed or fail by chance (race). Proved: input that fits in the pipe never holds the driver up; with no input the result is what the command writes and its code, the same for all schedules and sizes of pipe. Missing: results for commands that read input."
  },
  {
   "property": "C72",
   "status": "partial",
   "theorems": [
    "Verif.Inl.pass_shows_partial",
    "Verif.Inl.inline_shows_partial",
    "Verif.Inl.inline_twice_partial",
    "Verif.Inl.tag_means",
    "Verif.Inl.inline_scope",
    "Verif.Inl.inline_name",
    "Verif.Inl.inline_meta"
   ],
   "note": "False of the code: a function that takes its argument apart and uses a variable of a function around it has that variable captured (inline_scope); a name in a copied function is taken for that of a let around the place it is copied to (inline_name); the metadata of a documented combinator is lost (inline_meta). Proved for programs in which only functions with flat bodies are marked, none of them documented, and names mean what is nearest. Missing: destructuring functions and recursive combinators that happen not to be captured."
  },
  {
   "property": "C73",
   "status": "proved",
   "theorems": [
    "Verif.Inl.beta_apps"
   ],
   "note": "For every expression; the mark on a function, its body and its arguments may be anything."
  },
  {
   "property": "C74",
   "status": "proved",
   "theorems": [
    "Verif.Par.par_same",
    "Verif.Par.par_ends"
   ],
   "note": "For EU_PP_STRICT unset. The outcome is a relation, so that failures and interleavings are all of them covered; fuel is a bound on calls of which enough exists."
  },
  {
   "property": "C75",
   "status": "proved",
   "theorems": [
    "Verif.Par.reader_within",
    "Verif.Par.reader_apart",
    "Verif.Par.writer_within",
    "Verif.Par.arena_back"
   ],
   "note": "For memory of any contents."
  },
  {
   "property": "C76",
   "status": "partial",
   "theorems": [
    "Verif.Par.par_shows_partial",
    "Verif.Par.par_block_refused",
    "Verif.Par.par_meta_stack",
    "Verif.Par.par_meta_lost",
    "Verif.Par.par_meta_gained",
    "Verif.Par.par_text_cut"
   ],
   "note": "False of the code: a block made from lists of a key and a value is refused (par_block_refused); of several layers of metadata only the innermost is kept (par_meta_stack); metadata is lost, or that of another value is taken on, when an intrinsic forces a value on the way (par_meta_lost, par_meta_gained); a text of four gigabytes is cut (par_text_cut). Proved for results with at most one layer of metadata met last, blocks of pairs, texts and counts below 2^32."
  },
  {
   "property": "C77",
   "status": "proved",
   "theorems": [
    "Verif.Par.par_handles"
   ],
   "note": "For EU_PP_STRICT unset."
  },
  {
   "property": "C78",
   "status": "proved",
   "theorems": [
    "Verif.Graph.union_find_labels"
   ],
   "note": "Numbers are integers, exact as doubles below 2^53; edges of two non-negative numbers, for others see C81. Fuel is a bound on turns of loops of which enough exists."
  },
  {
   "property": "C79",
   "status": "proved",
   "theorems": [
    "Verif.Graph.topo_order",
    "Verif.Graph.topo_complete"
   ],
   "note": "As for C78."
  },
  {
   "property": "C80",
   "status": "proved",
   "theorems": [
    "Verif.Graph.kruskal_merges"
   ],
   "note": "As for C78."
  },
  {
   "property": "C81",
   "status": "partial",
   "theorems": [
    "Verif.Graph.negative_joins",
    "Verif.Graph.ignored_partial",
    "Verif.Graph.negative_cycle",
    "Verif.Graph.weight_shifts"
   ],
   "note": "False of the code: a negative number becomes node 0 (negative_joins, negative_cycle); also a third number in an edge shifts all the edges that follow (weight_shifts). Proved for numbers that are not negative."
  },
  {
   "property": "C82",
   "status": "partial",
   "theorems": [
    "Verif.Fmt.format_keeps_tokens_partial",
    "Verif.Fmt.format_keeps_tree_partial",
    "Verif.Fmt.carriage_return_joins",
    "Verif.Fmt.open_symbol_grows"
   ],
   "note": "False of the code: white space that is carriage returns only is removed, which joins names (carriage_return_joins); an open quoted symbol at the end is accepted and gains a newline (open_symbol_grows). Proved for texts of which every character is in a token, with no such white space, whose last token is closed, and that satisfy the hypotheses of C44."
  },
  {
   "property": "C83",
   "status": "partial",
   "theorems": [
    "Verif.Fmt.format_ends",
    "Verif.Fmt.needs_formatting_iff_partial",
    "Verif.Fmt.format_again_partial",
    "Verif.Fmt.open_quote_refused"
   ],
   "note": "False of the code: a lone quote at the end is accepted, what is written is refused (open_quote_refused). Proved for the same texts as C82; that a newline ends what is written, for all texts."
  },
  {
   "property": "C84",
   "status": "partial",
   "theorems": [
    "Verif.Fmt.format_layout_partial",
    "Verif.Fmt.interpolation_blanks_lost"
   ],
   "note": "False of texts with blanks in interpolations, which are lost (interpolation_blanks_lost). Proved for texts of which every character is in a token and that satisfy the hypotheses of C44."
  },
  {
   "property": "C85",
   "status": "proved",
   "theorems": [
    "Verif.Arr.indices_inside",
    "Verif.Arr.indices_order",
    "Verif.Arr.indices_nodup",
    "Verif.Arr.indices_length",
    "Verif.Arr.to_list_indices"
   ],
   "note": "For every array that can be made (`Made`)."
  },
  {
   "property": "C86",
   "status": "proved",
   "theorems": [
    "Verif.Arr.get_inside",
    "Verif.Arr.get_outside",
    "Verif.Arr.set_inside",
    "Verif.Arr.set_outside"
   ],
   "note": "For every array that can be made."
  },
  {
   "property": "C87",
   "status": "partial",
   "theorems": [
    "Verif.Arr.reshape_taken",
    "Verif.Arr.reshape_refused",
    "Verif.Arr.reshape_negative",
    "Verif.Arr.transpose_get",
    "Verif.Arr.transpose_shape",
    "Verif.Arr.transpose_twice",
    "Verif.Arr.slice_get",
    "Verif.Arr.slice_refused_partial",
    "Verif.Arr.slice_negative"
   ],
   "note": "False of the code in one point: a negative axis or index of a slice is not refused but counts as 0 (slice_negative). Proved for all others; for dimensions and axes below 2^64, beyond which numbers are cut off."
  },
  {
   "property": "C88",
   "status": "partial",
   "theorems": [
    "Verif.Arr.binop_arrays",
    "Verif.Arr.binop_shapes",
    "Verif.Arr.binop_number",
    "Verif.Arr.map_get_each",
    "Verif.Arr.map_indexed_get",
    "Verif.Arr.fold_order",
    "Verif.Arr.unit_arrays",
    "Verif.Arr.not_finite_read"
   ],
   "note": "Arithmetic: for arrays with finite elements. False otherwise: an element that is not finite, such as a quotient by 0, reads as 0 but is kept and used (not_finite_read). The maps, fold and unit arrays: for all arrays; a result that is not finite reads as 0."
  },
  {
   "property": "C89",
   "status": "partial",
   "theorems": [
    "Verif.Arr.neighbours_get_partial",
    "Verif.Arr.neighbours_cut",
    "Verif.Arr.neighbours_scalar",
    "Verif.Arr.neighbours_wrap"
   ],
   "note": "False of the code for offsets of the wrong length, which are cut up into others (neighbours_cut), for arrays of no dimensions (neighbours_scalar) and for coordinates beyond the machine's integers, which wrap round to elements inside (neighbours_wrap). Proved for offsets and coordinates of the length of the rank, which is not 0, within the machine's integers."
  },
  {
   "property": "C90",
   "status": "proved",
   "theorems": [
    "Verif.Arr.emit_nested"
   ],
   "note": "For every array that can be made."
  },
  {
   "property": "C91",
   "status": "partial",
   "theorems": [
    "Verif.Yaml.plain_scalar_as_schema_partial",
    "Verif.Yaml.plain_scalar_as_schema_false",
    "Verif.Yaml.stray_read_as_false",
    "Verif.Yaml.stray_number_refused"
   ],
   "note": "False of the code: by the precedence of `|` the expressions for `TRUE|FALSE` and `.nan|.NaN|.NAN` are not anchored at both ends, so that every text beginning with `TRUE` or ending with `FALSE`, such as `TRUE north`, is read as the boolean false, and texts with `.NaN` in them are refused. Proved for all other texts."
  },
  {
   "property": "C92",
   "status": "partial",
   "theorems": [
    "Verif.Yaml.json_number_read",
    "Verif.Yaml.number_as_written",
    "Verif.Yaml.other_number_refused",
    "Verif.Yaml.yaml_number_read_false"
   ],
   "note": "False of the code for numbers of YAML that are not numbers of JSON, such as 012, +5, 0x1F and .5: they are refused, all of them. Proved for numbers of JSON, and that every number read is as written. Ranges and rounding are left out."
  },
  {
   "property": "C93",
   "status": "partial",
   "theorems": [
    "Verif.Yaml.no_document_panics",
    "Verif.Yaml.document_read_as_written_partial",
    "Verif.Yaml.document_read_as_written_false"
   ],
   "note": "False of the code when a key has an anchor, which is not recorded: `{&k key: *k}` is refused. Proved for documents without anchors on keys, and for all documents that nothing panics."
  },
  {
   "property": "C94",
   "status": "proved",
   "theorems": [
    "Verif.Yaml.mapping_entries",
    "Verif.Yaml.merged_list"
   ],
   "note": "For documents without anchors on keys (see C93), read without code; the rule itself is `settle`."
  },
  {
   "property": "C95",
   "status": "partial",
   "theorems": [
    "Verif.Yaml.code_in_scope_partial",
    "Verif.Yaml.code_in_scope_false",
    "Verif.Yaml.codeMerge_read"
   ],
   "note": "False of the code when a mapping with code in it is merged into another: entries are taken out of their scope without opening it, so that the references in them lead, by number, into whatever is around the other mapping. Proved for documents where what is merged in has no such names."
  },
  {
   "property": "C96",
   "status": "partial",
   "theorems": [
    "Verif.Yaml.data_only_inert_partial",
    "Verif.Yaml.data_only_inert_false"
   ],
   "note": "False of the code for lines of JSON, which are read with code: `!eu x` in a line gives the code x. Proved for all other formats modelled."
  },
  {
   "property": "C97",
   "status": "partial",
   "theorems": [
    "Verif.Yaml.toml_entries",
    "Verif.Yaml.edn_entries_partial",
    "Verif.Yaml.edn_entries_false",
    "Verif.Yaml.csv_cells_partial",
    "Verif.Yaml.csv_cells_false",
    "Verif.Yaml.text_lines",
    "Verif.Yaml.text_whole",
    "Verif.Yaml.jsonl_lines",
    "Verif.Yaml.jsonl_first_error"
   ],
   "note": "False of the code for CSV with a header that occurs twice and for EDN maps with keys of the same name such as `:a` and `\"a\"`: all but the last entry are lost. Proved for distinct headers and names, for TOML, for lines and for lines of JSON."
  },
  {
   "property": "C98",
   "status": "proved",
   "theorems": [
    "Verif.Fuse.fuse_shows"
   ],
   "note": "A lookup means a call of the intrinsic for lookups on the boxed key, without the shortcut that is tried first (LookupLit); the intrinsics have the code of the repository (`Std`)."
  },
  {
   "property": "C99",
   "status": "proved",
   "theorems": [
    "Verif.Fuse.fuse_ends",
    "Verif.Fuse.fuse_done",
    "Verif.Fuse.fuse_again",
    "Verif.Fuse.fuse_apps"
   ],
   "note": ""
  },
  {
   "property": "C100",
   "status": "partial",
   "theorems": [
    "Verif.Fuse.hoist_shows_partial",
    "Verif.Fuse.hoist_shows_false",
    "Verif.Fuse.split_hoisted",
    "Verif.Fuse.split_hoisted_false"
   ],
   "note": "False of the code: a namespace of the program's own, at any depth and out of scope, that has the name of one of the prelude's and a function in it takes the place of the prelude's everywhere: with `{mine: {str: {upper: f}} x: str.upper}`, x is f. Proved for programs without namespaces that have functions in them."
  },
  {
   "property": "C101",
   "status": "partial",
   "theorems": [
    "Verif.Suite.enter_same_partial",
    "Verif.Suite.format_same_partial",
    "Verif.Suite.enter_named",
    "Verif.Suite.enter_sound",
    "Verif.Suite.enter_same_false"
   ],
   "note": "False of the code: targets are a hash set and the first of the name is taken; with two named `main`, one in the file and one in a file it imports, which is entered differs from run to run. Proved where there is one target of the name."
  },
  {
   "property": "C102",
   "status": "partial",
   "theorems": [
    "Verif.Suite.exit_zero_partial",
    "Verif.Suite.exit_zero_false",
    "Verif.Suite.check_holds",
    "Verif.Suite.failed_fails"
   ],
   "note": "False of the code: two tests of the same name are run by that name and have one entry in the evidence, so a failing one may be lost. Proved (both ways) where the targets of a file have names of their own, none of the checking targets but the library's is named `verify`, formats have no dash, and none is left out."
  },
  {
   "property": "C103",
   "status": "partial",
   "theorems": [
    "Verif.Suite.ends_partial",
    "Verif.Suite.left_out_fails",
    "Verif.Suite.left_out_false",
    "Verif.Suite.none_panics"
   ],
   "note": "False of the code: whenever a test is left out the whole run ends with an error, as the report is made from the result files of all tests (proved for all suites). Without any left out a run always comes to an exit code."
  },
  {
   "property": "C104",
   "status": "partial",
   "theorems": [
    "Verif.Suite.report_partial",
    "Verif.Suite.report_false"
   ],
   "note": "False of the code: result files are named without the extension of the test file, so `a.eu` and `a.yaml` share one. Proved where names differ in more than the extension."
  },
  {
   "property": "C105",
   "status": "proved",
   "theorems": [
    "Verif.Suite.plan_iff",
    "Verif.Suite.plan_once",
    "Verif.Suite.plan_imports"
   ],
   "note": ""
  },
  {
   "property": "C106",
   "status": "proved",
   "theorems": [
    "Verif.Suite.sidecar_read",
    "Verif.Suite.error_test_iff",
    "Verif.Suite.other_key",
    "Verif.Suite.sidecar_escapes"
   ],
   "note": "Patterns are taken as they stand: the escapes of YAML's double quotes are not undone, and unknown keys are passed over, as proved."
  },
  {
   "property": "C107",
   "status": "proved",
   "theorems": [
    "Verif.Printf.text_written"
   ],
   "note": ""
  },
  {
   "property": "C108",
   "status": "partial",
   "theorems": [
    "Verif.Printf.int_written_partial",
    "Verif.Printf.int_false"
   ],
   "note": "False of the code: all numbers are turned into doubles first, so that above 2^53 different numbers are written alike (proved whatever digits Rust writes). Proved for whole numbers up to 2^53 of either sign, if Rust writes the doubles that are such numbers by their digits."
  },
  {
   "property": "C109",
   "status": "proved",
   "theorems": [
    "Verif.Printf.based_written",
    "Verif.Printf.based_refused"
   ],
   "note": ""
  },
  {
   "property": "C110",
   "status": "proved",
   "theorems": [
    "Verif.Printf.fixed_written"
   ],
   "note": "That Rust's `{:.p}` rounds to the nearest is part of the model."
  },
  {
   "property": "C111",
   "status": "partial",
   "theorems": [
    "Verif.Printf.format_iff",
    "Verif.Printf.rest_ignored",
    "Verif.Printf.refused_false",
    "Verif.Printf.bool_any",
    "Verif.Printf.flags_unused"
   ],
   "note": "False of the code: whatever comes after a directive is passed over, as are the formats of booleans and null, and three of the six flags have no effect. Proved: a format is refused just when it does not begin with a directive."
  },
  {
   "property": "C112",
   "status": "proved",
   "theorems": [
    "Verif.Printf.base64_written",
    "Verif.Printf.base64_back",
    "Verif.Printf.base64_iff",
    "Verif.Printf.base64_error"
   ],
   "note": "The base64 crate and UTF-8 are modelled, the latter by Lean's own functions."
  },
  {
   "property": "C113",
   "status": "proved",
   "theorems": [
    "Verif.Lib.sort_perm",
    "Verif.Lib.sort_ordered",
    "Verif.Lib.sort_stable",
    "Verif.Lib.sort_only",
    "Verif.Lib.sortBy_is"
   ],
   "note": ""
  },
  {
   "property": "C114",
   "status": "partial",
   "theorems": [
    "Verif.Lib.nums_false",
    "Verif.Lib.sums_false",
    "Verif.Lib.nums_sorted_partial",
    "Verif.Lib.max_written_partial",
    "Verif.Lib.min_written_partial",
    "Verif.Lib.sum_written_partial",
    "Verif.Lib.nums_kind",
    "Verif.Lib.held_int"
   ],
   "note": "False of the code: the numbers become doubles, so that 2^53 + 1 comes back as 2^53, and a sum too big for a double comes back as zero. Proved for numbers that a double holds, and for sums of integers while no sum on the way is over 2^53."
  },
  {
   "property": "C115",
   "status": "proved",
   "theorems": [
    "Verif.Lib.discriminate_is",
    "Verif.Lib.groupBy_is",
    "Verif.Lib.groupBy_all",
    "Verif.Lib.consecutive_is",
    "Verif.Lib.uniq_is",
    "Verif.Lib.nubBy_is",
    "Verif.Lib.splitOn_is"
   ],
   "note": ""
  },
  {
   "property": "C116",
   "status": "partial",
   "theorems": [
    "Verif.Lib.windows_false",
    "Verif.Lib.windows_iff",
    "Verif.Lib.windows_partial",
    "Verif.Lib.windowsAll_is",
    "Verif.Lib.partition_is",
    "Verif.Lib.partitionAll_is"
   ],
   "note": "False of the code: `window` drops a whole step after the last window, which is an error if there is less than a step left. Proved just when that is so; never if the step is no greater than the window."
  },
  {
   "property": "C117",
   "status": "partial",
   "theorems": [
    "Verif.Lib.folds_are",
    "Verif.Lib.drop_false",
    "Verif.Lib.parts_partial",
    "Verif.Lib.parts_neg",
    "Verif.Lib.rotate_is",
    "Verif.Lib.whiles_are",
    "Verif.Lib.nth_is",
    "Verif.Lib.updateNth_is",
    "Verif.Lib.updateFirst_is",
    "Verif.Lib.range_false",
    "Verif.Lib.range_never",
    "Verif.Lib.range_partial",
    "Verif.Lib.transpose_false",
    "Verif.Lib.transpose_iff",
    "Verif.Lib.transpose_partial"
   ],
   "note": "False of the code: `range` never ends if the end is before the beginning, `drop` past the end and `transpose` of no rows are errors, and `transpose` silently cuts rows that are longer than the first. Proved for all other cases."
  },
  {
   "property": "C118",
   "status": "proved",
   "theorems": [
    "Verif.Nest.or_is",
    "Verif.Nest.set_is",
    "Verif.Nest.update_there",
    "Verif.Nest.update_other",
    "Verif.Nest.update_ok",
    "Verif.Nest.update_missing",
    "Verif.Nest.alter_is",
    "Verif.Nest.alter_twice",
    "Verif.Nest.merge_there",
    "Verif.Nest.merge_other",
    "Verif.Nest.merge_ok",
    "Verif.Nest.select_is",
    "Verif.Nest.sortKeys_is",
    "Verif.Nest.alts_are"
   ],
   "note": "For values of which no block has a key twice, where it says so."
  },
  {
   "property": "C119",
   "status": "partial",
   "theorems": [
    "Verif.Nest.find_iff",
    "Verif.Nest.paths_false",
    "Verif.Nest.paths_lead_partial",
    "Verif.Nest.paths_iff_partial",
    "Verif.Nest.paths_once_partial"
   ],
   "note": "False of the code: a path through a list leaves out the place in the list, and `lookup-path` fails on it. That all values are found is proved for all values; what is said of paths for values without lists, of which no block has a key twice."
  },
  {
   "property": "C120",
   "status": "partial",
   "theorems": [
    "Verif.Nest.query_iff",
    "Verif.Nest.star_false",
    "Verif.Nest.lists_false",
    "Verif.Nest.once_false",
    "Verif.Nest.query_find_partial",
    "Verif.Nest.query_once_partial"
   ],
   "note": "False of the code: `**` is put before every pattern, so that `*` matches at all depths; queries do not go into lists; `**` twice gives values twice; `**` at the end gives only blocks. Proved: just what is given, and that each is given once if `**` is only at the beginning."
  },
  {
   "property": "C121",
   "status": "proved",
   "theorems": [
    "Verif.Nest.match_iff",
    "Verif.Nest.match_more"
   ],
   "note": "What is neither a block nor a list is a number; functions are arbitrary and do not fail."
  },
  {
   "property": "C122",
   "status": "proved",
   "theorems": [
    "Verif.Args.parse_iff",
    "Verif.Args.fail_iff",
    "Verif.Args.line_unique",
    "Verif.Args.parse_keys"
   ],
   "note": "What JSON a text is is a parameter; a value that is no JSON fails only when it is looked at."
  },
  {
   "property": "C123",
   "status": "partial",
   "theorems": [
    "Verif.Args.eq_cut",
    "Verif.Args.eq_given_false",
    "Verif.Args.eq_given_partial",
    "Verif.Args.sep_given",
    "Verif.Args.args_kept_false",
    "Verif.Args.args_kept_partial",
    "Verif.Args.dash_lost",
    "Verif.Args.args_no_dash"
   ],
   "note": "False of the code: a value after `=` is cut at the next `=`, `-` alone is lost, and no argument that begins with `-` can be given. Proved for values without `=`, for all values that come as the next argument, and for arguments that do not begin with `-`."
  },
  {
   "property": "C124",
   "status": "partial",
   "theorems": [
    "Verif.Args.kinds_partial",
    "Verif.Args.flag_false",
    "Verif.Args.number_false",
    "Verif.Args.args_option_lost"
   ],
   "note": "False of the code: `--flag=false` makes a flag a text, any JSON is taken for a number, and an option called `args` is lost. Proved: values are the default, `true` for flags, or what the option makes of a text."
  },
  {
   "property": "C125",
   "status": "partial",
   "theorems": [
    "Verif.Unify.solve_iff_partial",
    "Verif.Unify.solve_fails_partial",
    "Verif.Unify.applied_same_partial",
    "Verif.Unify.forall_false",
    "Verif.Unify.kind_app",
    "Verif.Unify.fresh_numbered"
   ],
   "note": "Proved for types without `any`, records, quantifiers, type functions and variables of higher kind; that a failure means that there is no solution, for those without literals and `NonEmpty` too. False of the code for quantified types: their variables are renamed to `_t0`, `_t1`, … from 0 each time, and are taken for others of the same name."
  },
  {
   "property": "C126",
   "status": "partial",
   "theorems": [
    "Verif.Unify.ends_partial",
    "Verif.Unify.loop_made",
    "Verif.Unify.loop_never",
    "Verif.Unify.ends_false"
   ],
   "note": "False of the code: `{x: number, ..a}` and `{y: number, ..b}` give a substitution that leads round in a circle, and applying it never comes back. Proved for types without `any`, records, quantifiers, type functions and variables of higher kind."
  },
  {
   "property": "C127",
   "status": "partial",
   "theorems": [
    "Verif.Unify.symm_false",
    "Verif.Unify.symm_partial"
   ],
   "note": "False of the code: an open record unifies with one with more fields, but not the other way round. Proved for types without `any`, records, quantifiers, type functions, variables of higher kind, literals and `NonEmpty`."
  },
  {
   "property": "C128",
   "status": "partial",
   "theorems": [
    "Verif.Lens.path_lens",
    "Verif.Lens.view_finds",
    "Verif.Lens.view_found",
    "Verif.Lens.view_over",
    "Verif.Lens.over_view",
    "Verif.Lens.over_over",
    "Verif.Lens.over_fails",
    "Verif.Lens.view_then",
    "Verif.Lens.over_frame",
    "Verif.Lens.over_missing",
    "Verif.Lens.missing_key",
    "Verif.Lens.missing_index",
    "Verif.Lens.over_reports_false",
    "Verif.Lens.item_false",
    "Verif.Lens.item_partial",
    "Verif.Lens.list_of_lens"
   ],
   "note": "Proved for paths of keys and indices of any depth (putting in what is there, for data without repeated keys). False of the code: a key which is not there is an error of `view`, but `over` returns the block unchanged; and a value put in with `item` that no longer matches is not what `view` finds. `element` only as far as C129 goes."
  },
  {
   "property": "C129",
   "status": "partial",
   "theorems": [
    "Verif.Lens.view_many",
    "Verif.Lens.list_of_each",
    "Verif.Lens.list_of_comp",
    "Verif.Lens.over_list",
    "Verif.Lens.over_each_fails",
    "Verif.Lens.over_values",
    "Verif.Lens.over_twice",
    "Verif.Lens.list_of_over",
    "Verif.Lens.filtered_false",
    "Verif.Lens.filtered_partial",
    "Verif.Lens.over_identity"
   ],
   "note": "That two changes are one is false of `filtered`, as what matched need not match any more; proved for `at`, `ix` and `each` in any composition, and for `filtered` if matches go on to match. The rest is proved; that nothing changes, for data without repeated keys."
  },
  {
   "property": "C130",
   "status": "partial",
   "theorems": [
    "Verif.Lens.view_parts",
    "Verif.Lens.parts_put",
    "Verif.Lens.parts_more",
    "Verif.Lens.parts_fewer",
    "Verif.Lens.parts_false",
    "Verif.Lens.parts_same"
   ],
   "note": "False of the code: values beyond the number of foci are lost without a word. What is put is proved for `at`, `ix` and `each` in any composition, what is put back for all optics of the library."
  },
  {
   "property": "C131",
   "status": "partial",
   "theorems": [
    "Verif.Eff.let_laws",
    "Verif.Eff.for_laws",
    "Verif.Eff.thread_laws_partial",
    "Verif.Eff.thread_laws_false",
    "Verif.Eff.run_block_false",
    "Verif.Eff.do_laws"
   ],
   "note": "Proved for `let` and `for`, for `do` if `io` obeys the laws, and for `state` and `random` as to value and state. False of the blocks which `state` and `random` return: `bind` leaves `r` and `run` in them, beside the value and the state."
  },
  {
   "property": "C132",
   "status": "proved",
   "theorems": [
    "Verif.Eff.map_laws",
    "Verif.Eff.join_laws",
    "Verif.Eff.then_laws",
    "Verif.Eff.sequence_append",
    "Verif.Eff.pure_laws",
    "Verif.Eff.filterM_is",
    "Verif.Eff.sequence_runs",
    "Verif.Eff.thread_derived",
    "Verif.Eff.filterM_runs",
    "Verif.Eff.sequence_for",
    "Verif.Eff.sequence_choices",
    "Verif.Eff.filterM_subsets"
   ],
   "note": "For monads which obey the laws as they stand; for `state` and `random`, which do so only as to value and state, separately."
  },
  {
   "property": "C133",
   "status": "partial",
   "theorems": [
    "Verif.Eff.put_is",
    "Verif.Eff.get_is",
    "Verif.Eff.modify_is",
    "Verif.Eff.missing_silent",
    "Verif.Eff.set_false",
    "Verif.Eff.set_partial",
    "Verif.Eff.lifts_are",
    "Verif.Eff.lift_bind",
    "Verif.Eff.lift_swap",
    "Verif.Eff.eval_is"
   ],
   "note": "False of the code: `=!` does nothing if the key is not in the state, while `state.put` adds it; proved if it is there. Lifting: if `io` obeys the laws."
  },
  {
   "property": "C134",
   "status": "partial",
   "theorems": [
    "Verif.MonBlk.means_partial",
    "Verif.MonBlk.means_false",
    "Verif.MonBlk.let_means",
    "Verif.MonBlk.for_means"
   ],
   "note": "False of the code if a step has the name of the monad (`{ :state state: state.get }.state`): the steps after it, and `return`, then use the step's value for the monad. Proved for all other names."
  },
  {
   "property": "C135",
   "status": "partial",
   "theorems": [
    "Verif.MonBlk.reports_partial",
    "Verif.MonBlk.reports_false",
    "Verif.MonBlk.reported_is",
    "Verif.MonBlk.empty_block"
   ],
   "note": "As C134: false if a step has the name of the monad, proved for all other names."
  },
  {
   "property": "C136",
   "status": "partial",
   "theorems": [
    "Verif.MonBlk.symbol_spec",
    "Verif.MonBlk.literal_spec",
    "Verif.MonBlk.last_none",
    "Verif.MonBlk.last_is",
    "Verif.MonBlk.block_spec",
    "Verif.MonBlk.one_return",
    "Verif.MonBlk.no_return",
    "Verif.MonBlk.under_dot",
    "Verif.MonBlk.plain_stays",
    "Verif.MonBlk.bracket_reports",
    "Verif.MonBlk.row_stays",
    "Verif.MonBlk.element_is",
    "Verif.MonBlk.lookups_row",
    "Verif.MonBlk.tagged_partial",
    "Verif.MonBlk.tagged_false",
    "Verif.MonBlk.params_lost",
    "Verif.MonBlk.params_false",
    "Verif.MonBlk.panics_partial",
    "Verif.MonBlk.panics_false",
    "Verif.MonBlk.panics_always"
   ],
   "note": "False of the code in three ways: a block with any tag and a dot after it is taken for a monadic block (`{ :secret x: 1 }.x`), parameters of steps are dropped, and a monadic block with a dot as the last element panics. Proved otherwise. What a block after a dot does with the names before it is not modelled."
  },
  {
   "property": "C137",
   "status": "partial",
   "theorems": [
    "Verif.Contract.sound",
    "Verif.Contract.complete_partial",
    "Verif.Contract.complete_false"
   ],
   "note": "Data of the type are never rejected. The other way is false of the code for `Dict`, `NonEmpty`, sets, vectors and arrays, which accept anything (`Dict(number)` a string); proved for types without these. Type variables, and recursive types as the whole of what they stand for, accept anything both in the code and in the statement."
  },
  {
   "property": "C138",
   "status": "proved",
   "theorems": [
    "Verif.Contract.places",
    "Verif.Contract.violations_true",
    "Verif.Contract.others_free",
    "Verif.Contract.surplus"
   ],
   "note": "Paths are lists of keys and indices; how they are written is not modelled."
  },
  {
   "property": "C139",
   "status": "partial",
   "theorems": [
    "Verif.Contract.ensure_is",
    "Verif.Contract.ensure_partial"
   ],
   "note": "As C137: for types of which every part is looked at. That it raises what `validate` finds is proved for all."
  }
 ]
}
