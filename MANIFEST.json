{
 "claims": [
  {
   "property": "C01",
   "status": "proved",
   "theorems": [
    "Verif.Types.C01_contains_partial_order",
    "Verif.Types.C01_union_is_least_upper_bound",
    "Verif.Types.C01_least_upper_bound",
    "Verif.Types.C01_bound_is_copyability",
    "Verif.Types.C01_constructors_keep_invariant",
    "Verif.Types.C01_sum_bound",
    "Verif.Types.C01_instantiated_bound"
   ],
   "note": "Bounds of all types, by induction on types."
  },
  {
   "property": "C02",
   "status": "proved",
   "theorems": [
    "Verif.Types.C02_equality_is_equivalence",
    "Verif.Types.C02_equal_types_hash_alike",
    "Verif.Types.C02_equality_of_built_types",
    "Verif.Types.C02_unit_sum_interchangeable",
    "Verif.Types.C02_views_follow_rows",
    "Verif.Types.C02_new_sum_rows"
   ],
   "note": "Compact and general forms of sums."
  },
  {
   "property": "C03",
   "status": "partial",
   "theorems": [
    "Verif.Types.C03_subst_valid_partial",
    "Verif.Types.C03_subst_row_valid_partial",
    "Verif.Types.C03_copyable_stays_copyable",
    "Verif.Types.C03_subst_keeps_kind_partial",
    "Verif.Types.C03_row_variable_argument_panics",
    "Verif.Types.C03_list_concat_misjudged",
    "Verif.Types.C03_list_of_lists_flattened"
   ],
   "note": "Proved without concatenation terms, with literal lists for row variables; the code violates the full statement (three refutations)."
  },
  {
   "property": "C04",
   "status": "partial",
   "theorems": [
    "Verif.Types.C04_identity_type_partial",
    "Verif.Types.C04_identity_term_partial",
    "Verif.Types.C04_tuple_kind_refuted",
    "Verif.Types.C04_row_variable_refuted"
   ],
   "note": "Proved without concatenations, tuple kinds and row variables; refuted for tuple kinds and row variables."
  },
  {
   "property": "C05",
   "status": "partial",
   "theorems": [
    "Verif.Types.C05_compose_partial"
   ],
   "note": "Terms and arguments without concatenations; both substitutions assumed not to panic."
  },
  {
   "property": "C06",
   "status": "partial",
   "theorems": [
    "Verif.Types.C06_error_iff_mismatch",
    "Verif.Types.C06_instantiate_partial",
    "Verif.Types.C06_instantiate_closed_partial",
    "Verif.Types.C06_instantiate_panics"
   ],
   "note": "Rejection is exact for all inputs; success proved in the fragment of C03; refuted in general (panic on a row variable as argument)."
  },
  {
   "property": "C07",
   "status": "partial",
   "theorems": [
    "Verif.Types.C07_supertype_transitive",
    "Verif.Types.C07_check_monotone",
    "Verif.Types.C07_check_terms_monotone",
    "Verif.Types.C07_supertype_reflexive_partial",
    "Verif.Types.C07_supertype_reflexive_refuted",
    "Verif.Types.C07_check_exact_partial"
   ],
   "note": "Transitivity and subsumption hold for all terms; reflexivity is refuted for constant types and concatenations and proved for the rest. Literal arguments: acceptance is exactly the independent description of kinds."
  },
  {
   "property": "C08",
   "status": "proved",
   "theorems": [
    "Verif.Types.C08_new_list_denotes_concatenation",
    "Verif.Types.C08_new_tuple_denotes_concatenation",
    "Verif.Types.C08_closed_results_are_plain",
    "Verif.Types.C08_iterators_flatten",
    "Verif.Types.C08_decompose_rebuild"
   ],
   "note": "Sequence terms denote the concatenation of their parts."
  },
  {
   "property": "C09",
   "status": "partial",
   "theorems": [
    "Verif.Ops.OpTag.C09_is_superset_unfolds",
    "Verif.Ops.OpTag.C09_is_superset_iff_contains",
    "Verif.Ops.OpTag.C09_is_superset_partial_order",
    "Verif.Ops.OpTag.C09_partial_cmp_agrees",
    "Verif.Ops.OpTag.C09_none_below_all_refuted"
   ],
   "note": "Everything proved except the clause 'None is below every tag', which the code violates: C09_none_below_all_refuted shows None is only below Any and itself."
  },
  {
   "property": "C10",
   "status": "proved",
   "theorems": [
    "Verif.Ops.C10_port_count",
    "Verif.Ops.C10_port_kind",
    "Verif.Ops.C10_ranges",
    "Verif.Ops.C10_static_port",
    "Verif.Ops.C10_other_port",
    "Verif.Ops.C10_own_static_port",
    "Verif.Ops.C10_invalid_tag_panics",
    "Verif.Ops.C10_out_of_range_kind",
    "Verif.Ops.C10_out_of_range_refuted"
   ],
   "note": "All operations, both directions, all offsets below port_count. Findings: a Tag with an invalid tag panics; offsets beyond port_count are given the order/control-flow kind."
  },
  {
   "property": "C11",
   "status": "proved",
   "theorems": [
    "Verif.IntFold.C11_new_u",
    "Verif.IntFold.C11_new_s",
    "Verif.IntFold.C11_two_complement",
    "Verif.IntFold.C11_reencode"
   ],
   "note": "All u8 log-widths and 64-bit values, both build profiles. Values built through the API; deserialised ConstInts bypass the checks."
  },
  {
   "property": "C12",
   "status": "partial",
   "theorems": [
    "Verif.IntFold.C12_iadd",
    "Verif.IntFold.C12_isub",
    "Verif.IntFold.C12_ineg",
    "Verif.IntFold.C12_imul",
    "Verif.IntFold.C12_signed_reading",
    "Verif.IntFold.C12_ipow_partial",
    "Verif.IntFold.C12_ipow_up_to_32_bits_partial",
    "Verif.IntFold.C12_ipow_refuted",
    "Verif.IntFold.C12_ports_ignored_refuted",
    "Verif.IntFold.C15_two_inputs_used",
    "Verif.IntFold.C15_one_input_used"
   ],
   "note": "Full for iadd, isub, ineg, imul and for ipow with exponents below 2^32; ipow with larger 64-bit exponents is refuted (the exponent is clamped)."
  },
  {
   "property": "C13",
   "status": "partial",
   "theorems": [
    "Verif.IntFold.C13_idivmod_u",
    "Verif.IntFold.C13_idiv_u",
    "Verif.IntFold.C13_checked_u_partial",
    "Verif.IntFold.C13_idivmod_s_partial",
    "Verif.IntFold.C13_idiv_s_partial",
    "Verif.IntFold.C13_checked_s_partial",
    "Verif.IntFold.C13_quotient_release",
    "Verif.IntFold.C13_zero_unchecked",
    "Verif.IntFold.C13_zero_checked",
    "Verif.IntFold.C13_min_remainder_refuted",
    "Verif.IntFold.C13_min_always_wrong",
    "Verif.IntFold.C13_min_panics"
   ],
   "note": "Unsigned division proved in full; signed for every dividend except -2^63 at 64 bits with divisors that are below 2^63 and do not divide 2^63, where the code is always wrong (C13_min_always_wrong)."
  },
  {
   "property": "C14",
   "status": "partial",
   "theorems": [
    "Verif.IntFold.C14_and_or_xor",
    "Verif.IntFold.C14_inot",
    "Verif.IntFold.C14_ishl_partial",
    "Verif.IntFold.C14_ishr_partial",
    "Verif.IntFold.C14_shift_out_partial",
    "Verif.IntFold.C14_irotl_partial",
    "Verif.IntFold.C14_irotr_partial",
    "Verif.IntFold.C14_shift_panics",
    "Verif.IntFold.C14_shift_refuted",
    "Verif.IntFold.C14_rotate_panics"
   ],
   "note": "Bitwise logic in full; shifts for amounts below 64 (larger amounts refuted); rotations in full for release builds, debug builds panic on 64-bit rotations by multiples of 64."
  },
  {
   "property": "C15",
   "status": "partial",
   "theorems": [
    "Verif.IntFold.C15_equality",
    "Verif.IntFold.C15_compare_unsigned",
    "Verif.IntFold.C15_compare_signed",
    "Verif.IntFold.C15_extrema_unsigned",
    "Verif.IntFold.C15_extrema_signed",
    "Verif.IntFold.C15_iabs_partial",
    "Verif.IntFold.C15_iabs_panics",
    "Verif.IntFold.C15_iwiden_u",
    "Verif.IntFold.C15_iwiden_s",
    "Verif.IntFold.C15_widen_declines",
    "Verif.IntFold.C15_inarrow_u_partial",
    "Verif.IntFold.C15_inarrow_s_partial",
    "Verif.IntFold.C15_narrow_u_refuted",
    "Verif.IntFold.C15_narrow_s_refuted",
    "Verif.IntFold.C15_sign_casts_partial",
    "Verif.IntFold.C15_sign_cast_panics",
    "Verif.IntFold.C15_conversion_used",
    "Verif.IntFold.C15_declared_types_partial",
    "Verif.IntFold.C15_checked_types_refuted",
    "Verif.IntFold.C15_log_width_truncated"
   ],
   "note": "Comparisons, extrema and widening in full; iabs except the least value (panics), narrowing except to 64 bits (refuted), sign casts when both readings agree (otherwise a panic), result types except the checked divisions (refuted)."
  },
  {
   "property": "C16",
   "status": "partial",
   "theorems": [
    "Verif.Dataflow.C16_order",
    "Verif.Dataflow.C16_describes_mono",
    "Verif.Dataflow.C16_invariant_kept",
    "Verif.Dataflow.C16_join_lub_partial",
    "Verif.Dataflow.C16_join_least",
    "Verif.Dataflow.C16_join_describes_partial",
    "Verif.Dataflow.C16_join_idempotent",
    "Verif.Dataflow.C16_join_comm_partial",
    "Verif.Dataflow.C16_join_assoc_partial",
    "Verif.Dataflow.C16_function_args_refuted"
   ],
   "note": "Holds for all abstract values in which each function node is loaded with one list of arguments; refuted otherwise (join keeps the first arguments)."
  },
  {
   "property": "C17",
   "status": "partial",
   "theorems": [
    "Verif.Dataflow.C17_invariant_kept",
    "Verif.Dataflow.C17_meet_describes_partial",
    "Verif.Dataflow.C17_meet_le_left",
    "Verif.Dataflow.C17_meet_glb_partial",
    "Verif.Dataflow.C17_absorption_partial",
    "Verif.Dataflow.C17_length_mismatch_refuted",
    "Verif.Dataflow.C17_function_args_refuted"
   ],
   "note": "Holds for values of one type with consistent function arguments; refuted for values of different types (the meet of partly overlapping sums becomes bottom)."
  },
  {
   "property": "C18",
   "status": "partial",
   "theorems": [
    "Verif.Dataflow.C18_join_flag",
    "Verif.Dataflow.C18_meet_flag_partial",
    "Verif.Dataflow.C18_meet_flag_refuted"
   ],
   "note": "Join: exact. Meet: every change is reported, but spurious changes are reported too (refuted)."
  },
  {
   "property": "C19",
   "status": "partial",
   "theorems": [
    "Verif.Dataflow.C19_unchanged_iff_le",
    "Verif.Dataflow.C19_cmp_complete_partial",
    "Verif.Dataflow.C19_cmp_equal",
    "Verif.Dataflow.C19_cmp_refuted",
    "Verif.Dataflow.C19_cmp_order_refuted"
   ],
   "note": "The comparison contains the lattice order and its equality is exact; the converse is refuted, and the outcome depends on the iteration order of the hash map."
  },
  {
   "property": "C20",
   "status": "partial",
   "theorems": [
    "Verif.Graph.C20_tree_partial",
    "Verif.Graph.C20_set_parent",
    "Verif.Graph.C20_move_before",
    "Verif.Graph.C20_move_after",
    "Verif.Graph.C20_add_node",
    "Verif.Graph.C20_add_node_before",
    "Verif.Graph.C20_add_node_after",
    "Verif.Graph.C20_module_root_refuted",
    "Verif.Graph.C20_dead_parent_refuted",
    "Verif.Graph.C20_orphan_refuted"
   ],
   "note": "Proved for every history of calls made as documented and every index allocation; the exact effect of every addition and move is proved. Calls the documentation says panic but the code accepts break the tree: refuted with witnesses."
  },
  {
   "property": "C21",
   "status": "proved",
   "theorems": [
    "Verif.Graph.C21_connect",
    "Verif.Graph.C21_disconnect",
    "Verif.Graph.C21_symmetric",
    "Verif.Graph.C21_set_num_ports",
    "Verif.Graph.C21_add_ports",
    "Verif.Graph.C21_insert_ports",
    "Verif.Graph.C21_insert_range_refuted",
    "Verif.Graph.C20_tree_partial"
   ],
   "note": "Exact effect of every link and port operation, with multiplicities; LinksOk, the hypothesis, is an invariant of every history (C20_tree_partial). Finding: insert_ports past the end returns a range that is not the new ports."
  },
  {
   "property": "C22",
   "status": "proved",
   "theorems": [
    "Verif.Graph.C22_remove_subtree"
   ],
   "note": "Exact success condition and exact effect, on every tree."
  },
  {
   "property": "C23",
   "status": "proved",
   "theorems": [
    "Verif.Graph.C23_insert_hugr",
    "Verif.Graph.C23_insert_forest"
   ],
   "note": "insert_hugr, insert_region and insert_forest, for every index allocation; the view variants are C45"
  },
  {
   "property": "C24",
   "status": "partial",
   "theorems": [
    "Verif.Graph.C24_canonicalize_partial",
    "Verif.Graph.C24_metadata_refuted",
    "Verif.Graph.C24_rekey_refuted"
   ],
   "note": "Renumbering of operations, ports, hierarchy and links proved for every tree; metadata does not move with its node (refuted), rekey callback not called as documented (refuted)"
  },
  {
   "property": "C25",
   "status": "proved",
   "theorems": [
    "Verif.Graph.C25_round_trip",
    "Verif.Graph.C25_ops_law",
    "Verif.Graph.C25_history_round_trip",
    "Verif.Graph.C25_extra_port_refuted",
    "Verif.Graph.C25_read_panics",
    "Verif.Graph.C25_write_panics",
    "Verif.Graph.C25_unknown_parent_accepted",
    "Verif.Graph.C25_empty_panics"
   ],
   "note": "Round trip for every Hugr whose hierarchy is a tree below a module and whose nodes have the ports of their operations (both checked by validate). Links are preserved up to the order in which they were made. The refuted theorems record what happens outside those conditions."
  },
  {
   "property": "C26",
   "status": "partial",
   "theorems": [
    "Verif.Graph.C26_metadata_partial",
    "Verif.Graph.C26_set",
    "Verif.Graph.C26_reuse_refuted"
   ],
   "note": "Holds in histories that do not reuse an index; refuted for index reuse: a fresh node shows the metadata of the removed node."
  },
  {
   "property": "C27",
   "status": "partial",
   "theorems": [
    "Verif.Scope.C27_symbol_table_refines_stack_partial",
    "Verif.Scope.C27_is_visible_refuted",
    "Verif.Scope.C27_is_visible_sound_partial",
    "Verif.Scope.C27_is_visible_unshadowed_partial"
   ],
   "note": "Everything except is_visible refines lexical scoping; is_visible is refuted by a concrete history, and proved sound always and exact when no name is bound twice."
  },
  {
   "property": "C28",
   "status": "proved",
   "theorems": [
    "Verif.Scope.C28_link_table_refines_stack"
   ],
   "note": ""
  },
  {
   "property": "C29",
   "status": "proved",
   "theorems": [
    "Verif.Scope.C29_var_table_refines_stack"
   ],
   "note": ""
  },
  {
   "property": "C30",
   "status": "proved",
   "theorems": [
    "Verif.Registry.C30_registry_keeps_newest",
    "Verif.Registry.C30_registry_new"
   ],
   "note": ""
  },
  {
   "property": "C31",
   "status": "proved",
   "theorems": [
    "Verif.Registry.C31_validate_never_stale",
    "Verif.Registry.C31_validate_exact"
   ],
   "note": "All interleavings of validate, clone and exclusive calls; Extension::validate is an arbitrary fixed function."
  },
  {
   "property": "C32",
   "status": "proved",
   "theorems": [
    "Verif.Envelope.C32_header_round_trip",
    "Verif.Envelope.C32_header_read_exact",
    "Verif.Envelope.C32_header_unique"
   ],
   "note": ""
  },
  {
   "property": "C33",
   "status": "proved",
   "theorems": [
    "Verif.Text.C33_string_round_trip",
    "Verif.Text.C33_one_line",
    "Verif.Text.C33_unicode_escape"
   ],
   "note": "All strings; what follows the literal is arbitrary."
  },
  {
   "property": "C34",
   "status": "proved",
   "theorems": [
    "Verif.Text.C34_round_trip",
    "Verif.Text.C34_layout_exists",
    "Verif.Text.C34_print_injective",
    "Verif.Text.C34_flat_fixed",
    "Verif.Text.C34_fuel_enough",
    "Verif.Text.C34_progress",
    "Verif.Text.C34_tuple_name_refuted",
    "Verif.Text.C34_fn_name_panics",
    "Verif.Text.C34_underscore_refuted",
    "Verif.Text.C34_float_refuted",
    "Verif.Text.C34_nat_panics",
    "Verif.Text.C34_trailing_ignored",
    "Verif.Text.C34_var_space_refuted",
    "Verif.Text.C34_func_unparsable",
    "Verif.Text.C34_alphabet",
    "Verif.Text.C34_keywords"
   ],
   "note": "For every layout the pretty printer may choose. Term.Ok excludes exactly the names and numbers the grammar reads as something else; each exclusion is justified by a refutation theorem (tuple-like names, fn with one argument, _, floats without a point, numbers of 2^64 or more). Function terms (Term::Func) are not modelled as terms: C34_func_unparsable shows their printed form never parses."
  },
  {
   "property": "C35",
   "status": "partial",
   "theorems": [
    "Verif.Passes.C35_outcome",
    "Verif.Passes.C35_removes_exactly",
    "Verif.Passes.C35_dependencies",
    "Verif.Passes.C35_ancestors_partial",
    "Verif.Passes.C35_given_node_refuted",
    "Verif.Passes.C35_indirect_call_removed",
    "Verif.Passes.C35_default_keeps",
    "Verif.Passes.C35_default_removes"
   ],
   "note": "The removed nodes are exactly those of the entrypoint region that are not needed, where needed is defined inductively apart from the code. Ancestors of needed nodes are kept for Hugrs with edges as in valid ones, unless a node is given to the pass without the node it is inside of: that case is refuted."
  },
  {
   "property": "C36",
   "status": "proved",
   "theorems": [
    "Verif.Passes.C36_removes_exactly",
    "Verif.Passes.C36_error",
    "Verif.Passes.C36_rejects",
    "Verif.Passes.C36_links_kept_partial",
    "Verif.Passes.C36_nested_entrypoint_refuted",
    "Verif.Passes.C36_missing_node_panics",
    "Verif.Patch.C36_valid_removes_exactly"
   ],
   "note": "Exact set of nodes kept, for every well-formed Hugr. Also shown: links are kept if the entrypoint is at module level; a nested entrypoint leaves dangling calls (refuted); a node that is not in the Hugr panics."
  },
  {
   "property": "C37",
   "status": "proved",
   "theorems": [
    "Verif.Passes.C37_force_order",
    "Verif.Passes.C37_order_unique",
    "Verif.Passes.C37_rank_refuted",
    "Verif.Passes.C37_rank_unsatisfiable",
    "Verif.Patch.C37_valid_results"
   ],
   "note": "For every well-formed Hugr with acyclic regions and every rank function that does not depend on the links. The stronger documented rank rule is refuted. Also: forcing an order keeps a valid Hugr valid and preserves the results of its functions."
  },
  {
   "property": "C38",
   "status": "proved",
   "theorems": [
    "Verif.Passes.C38_region_blocks",
    "Verif.Passes.C38_single_exit",
    "Verif.Passes.C38_missing_exit_refuted",
    "Verif.Passes.C38_exit_inside_refuted",
    "Verif.Passes.C38_side_entry_refuted"
   ],
   "note": "For every finite control-flow graph. Also shown: what the function does not check."
  },
  {
   "property": "C39",
   "status": "proved",
   "theorems": [
    "Verif.Persistent.C39_store",
    "Verif.Persistent.C39_histories",
    "Verif.Persistent.C39_find_conflicting",
    "Verif.Persistent.C39_try_new",
    "Verif.Persistent.C39_try_add_commits",
    "Verif.Persistent.C39_try_add_replacement",
    "Verif.Persistent.C39_is_valid",
    "Verif.Persistent.C39_node_status",
    "Verif.Persistent.C39_failed_addition_refuted",
    "Verif.Persistent.C39_order_refuted",
    "Verif.Persistent.C39_unknown_parent_refuted",
    "Verif.Persistent.C39_from_commit_panics",
    "Verif.Persistent.C39_replacement_iff"
   ],
   "note": "All sequences of successful calls give histories; creation and addition succeed exactly when nothing conflicts. Refuted: a failed addition can leave conflicting commits behind, UnknownParent is not reported, from_commit can panic on a valid commit. The crate relrc is modelled by its documented behaviour; graphs in the commits and apply_all are not modelled."
  },
  {
   "property": "C40",
   "status": "proved",
   "theorems": [
    "Verif.SumLayout.C40_layout"
   ],
   "note": "Model is generic in a linearly ordered field type, as layout_variants_impl is. That BasicTypeOrd is a lawful order on LLVM types (distinct types print differently) is assumed."
  },
  {
   "property": "C41",
   "status": "proved",
   "theorems": [
    "Verif.Ident.C41_new_iff",
    "Verif.Ident.C41_split_last",
    "Verif.Ident.C41_components_unique"
   ],
   "note": "Regex modelled by derivatives; the classes of word and digit characters are parameters, with '.' not a word character."
  },
  {
   "property": "C42",
   "status": "partial",
   "theorems": [
    "Verif.Graph.C42_link_view",
    "Verif.Graph.C42_link_hugr_partial",
    "Verif.Graph.C42_whole_module_panics",
    "Verif.Graph.C42_entrypoint_child_panics",
    "Verif.Graph.C42_missing_target_panics",
    "Verif.Graph.C42_nested_refuted",
    "Verif.Graph.C42_parent_replaced_refuted"
   ],
   "note": "Both variants proved for directives that do not nest and for Hugrs whose directives name live nodes; the code panics or misbehaves outside (proved witnesses)."
  },
  {
   "property": "C43",
   "status": "partial",
   "theorems": [
    "Verif.Ops.C43_signature",
    "Verif.Ops.C43_inner_signature",
    "Verif.Ops.C43_branch_rows",
    "Verif.Ops.C43_ports_kept",
    "Verif.Ops.C43_closed_type_unchanged_partial",
    "Verif.Ops.C43_call_assert_partial",
    "Verif.Ops.C43_load_constant_refuted"
   ],
   "note": "Signatures, bodies, branches and ports for all operations; the call assertion for terms without concatenations; LoadConstant ignores the substitution (finding)."
  },
  {
   "property": "C44",
   "status": "proved",
   "theorems": [
    "Verif.Dataflow.C44_contains_bottom",
    "Verif.Dataflow.C44_supports_tag",
    "Verif.Dataflow.C44_variant_values",
    "Verif.Dataflow.C44_variant_values_sound",
    "Verif.Dataflow.C44_try_into_concrete"
   ],
   "note": "By induction on abstract values."
  },
  {
   "property": "C45",
   "status": "partial",
   "theorems": [
    "Verif.Graph.C45_insert_view_forest_partial",
    "Verif.Graph.C45_insert_from_view_partial",
    "Verif.Graph.C45_stale_metadata_refuted",
    "Verif.Graph.C45_duplicate_refuted",
    "Verif.Graph.C45_no_parent_panics"
   ],
   "note": "Everything proved but metadata of nodes without any (stale metadata of a reused index stays), the state after an error and the documented case of a node without parent, which are refuted"
  },
  {
   "property": "C46",
   "status": "proved",
   "theorems": [
    "Verif.Text.C46_round_trip",
    "Verif.Text.C46_node_round_trip",
    "Verif.Text.C46_region_round_trip",
    "Verif.Text.C46_param_round_trip",
    "Verif.Text.C46_symbol_round_trip",
    "Verif.Text.C46_layout_exists",
    "Verif.Text.C46_print_injective",
    "Verif.Text.C46_fuel_enough",
    "Verif.Text.C46_import_name_refuted",
    "Verif.Text.C46_clause_name_refuted",
    "Verif.Text.C46_visibility_refuted",
    "Verif.Text.C46_where_refuted",
    "Verif.Text.C46_module_display_refuted",
    "Verif.Text.C46_trailing_rejected"
   ],
   "note": "For every layout the pretty printer may choose. Package.Ok excludes the names and terms the grammar reads as something else; refutations show these exclusions are needed. A module printed on its own lacks its header and is never read back (refuted in general)."
  },
  {
   "property": "C47",
   "status": "partial",
   "theorems": [
    "Verif.Validate.C47_validate_iff_partial",
    "Verif.Validate.C47_error_true",
    "Verif.Validate.C47_two_functions_refuted",
    "Verif.Validate.C47_undeclared_variable_refuted",
    "Verif.Validate.C47_conditional_panics",
    "Verif.Validate.C47_one_child_panics",
    "Verif.Validate.C47_constant_in_cfg_panics",
    "Verif.Validate.C47_invalid_tag_panics"
   ],
   "note": "Exact for the rules the code checks, with two differences from the specification that are refuted: incoming function ports may have more than one edge, and type arguments of calls are not checked against the variables in scope. Some invalid Hugrs make validation panic instead of returning an error."
  },
  {
   "property": "C48",
   "status": "partial",
   "theorems": [
    "Verif.Dataflow.C48_inputs_partial",
    "Verif.Dataflow.C48_outputs_partial",
    "Verif.Dataflow.C48_case_reachable_partial",
    "Verif.Dataflow.C48_block_reachable_partial",
    "Verif.Dataflow.C48_loop_partial",
    "Verif.Dataflow.C48_declared_call_refuted",
    "Verif.Dataflow.C48_indirect_call_refuted",
    "Verif.Dataflow.C48_schedule_refuted",
    "Verif.Dataflow.C48_input_wire_refuted",
    "Verif.Dataflow.C48_inputs_ignored"
   ],
   "note": "Proved for valid Hugrs and all schedules against an operational semantics, under the condition that called functions have bodies and that functions the analysis cannot tell were announced. The out-wires of the input node of a started region are excluded (the code leaves them unset)."
  },
  {
   "property": "C49",
   "status": "partial",
   "theorems": [
    "Verif.Dataflow.C49_constants_partial",
    "Verif.Dataflow.C49_rewired",
    "Verif.Dataflow.C49_preserves_partial",
    "Verif.Dataflow.C49_public_function_refuted",
    "Verif.Dataflow.C49_inputs_confused_refuted",
    "Verif.Dataflow.C49_linear_refuted"
   ],
   "note": "Values and executions are preserved if no value that comes from outside is on a broken wire (InputsKept), given constants that can not be hashed agree (InputsAgree), and all calls are analysed (Covered). The refuted theorems show that each of the first two is needed, and that folding a linear value can leave an invalid Hugr."
  },
  {
   "property": "C50",
   "status": "partial",
   "theorems": [
    "Verif.Dataflow.C50_dead_code_partial",
    "Verif.Dataflow.C50_constant_fold_partial",
    "Verif.Dataflow.C50_block_entrypoint_refuted"
   ],
   "note": "Both directions for dead code elimination, one direction for constant folding (operations without a result may be folded away or removed, so the other direction does not hold). Missing: entrypoints that are basic blocks (refuted) and given nodes inside nodes that are not given."
  },
  {
   "property": "C51",
   "status": "proved",
   "theorems": [
    "Verif.Patch.C51_inline",
    "Verif.Patch.C51_refused"
   ],
   "note": "The result is described by the structure Inlined, about links and hierarchy alone."
  },
  {
   "property": "C52",
   "status": "proved",
   "theorems": [
    "Verif.Patch.C52_inline_returns"
   ],
   "note": "Returns is given by the operational semantics Runs in Patch/Semantics.lean."
  },
  {
   "property": "C53",
   "status": "partial",
   "theorems": [
    "Verif.Patch.C53_valid_iff_partial",
    "Verif.Patch.C53_local_valid_partial",
    "Verif.Patch.C53_lost_order_refuted",
    "Verif.Patch.C53_deep_use_refuted",
    "Verif.Patch.C53_outer_input_refuted"
   ],
   "note": "False of the code in general: three refutations by valid Hugrs whose inlining is invalid. Proved: the exact condition on order links and uses of outer values under which the result is valid, and that it is met when links of values and order stay in their regions."
  },
  {
   "property": "C54",
   "status": "partial",
   "theorems": [
    "Verif.Patch.C54_inline",
    "Verif.Patch.C54_refused",
    "Verif.Patch.C54_inline_valid_partial",
    "Verif.Patch.C54_recursive_panics",
    "Verif.Patch.C54_polymorphic_refuted"
   ],
   "note": "The claim fails for calls with type arguments (the result is invalid) and for calls inside the function that they call (panic); both are shown. Otherwise it holds: what the result is, and that it is valid if the function has no type parameters."
  },
  {
   "property": "C55",
   "status": "partial",
   "theorems": [
    "Verif.Patch.C55_inline_returns_partial"
   ],
   "note": "Missing: calls with type arguments, for which the rewrite gives an invalid Hugr anyway."
  },
  {
   "property": "C56",
   "status": "partial",
   "theorems": [
    "Verif.Patch.C56_inline_acyclic_partial",
    "Verif.Patch.C56_polymorphic_refuted"
   ],
   "note": "Proved for calls without type arguments and with one source; with type arguments the pass makes an invalid Hugr (refuted)."
  },
  {
   "property": "C57",
   "status": "partial",
   "theorems": [
    "Verif.Patch.C57_inline_dfgs_partial",
    "Verif.Patch.C57_lost_order_refuted"
   ],
   "note": "Proved for valid Hugrs whose links of values and order stay in their regions. With links between regions the pass can make a valid Hugr invalid (C57_lost_order_refuted), so the full statement is false."
  },
  {
   "property": "C58",
   "status": "proved",
   "theorems": [
    "Verif.Patch.C58_replace",
    "Verif.Patch.C58_try_new",
    "Verif.Patch.C58_refused",
    "Verif.Patch.C58_outer_link_panics"
   ],
   "note": "For replacements without links into or out of their entrypoint; with one to the output the rewrite panics (finding C58_outer_link_panics)."
  },
  {
   "property": "C59",
   "status": "proved",
   "theorems": [
    "Verif.Patch.C59_replace_allows",
    "Verif.Patch.C59_replace_respects",
    "Verif.Patch.C59_replace_results"
   ],
   "note": "Executions as in C57; what a subgraph or replacement does is stated by SubMeans and BodyMeans, with called functions answering alike."
  },
  {
   "property": "C60",
   "status": "proved",
   "theorems": [
    "Verif.Patch.C60_replace_valid",
    "Verif.Patch.C60_order_links_refuted",
    "Verif.Patch.C60_repeated_output_refuted",
    "Verif.Patch.C60_outer_link_refuted"
   ],
   "note": "Separable is what SiblingSubgraph documents; the findings are replacements and subgraphs that try_new accepts although the result is invalid."
  },
  {
   "property": "C61",
   "status": "proved",
   "theorems": [
    "Verif.Patch.C61_validate_subgraph",
    "Verif.Patch.C61_from_nodes",
    "Verif.Patch.C61_from_nodes_replace",
    "Verif.Patch.C61_try_new",
    "Verif.Patch.C61_validate",
    "Verif.Patch.C61_two_orders_panics",
    "Verif.Patch.C61_isolated_node_refuted",
    "Verif.Patch.C61_no_shared_parent_accepted",
    "Verif.Patch.C61_input_output_accepted",
    "Verif.Patch.C61_blocks_accepted"
   ],
   "note": "Nodes are children of one dataflow region. The panics and what is accepted outside of a region are findings."
  },
  {
   "property": "C62",
   "status": "proved",
   "theorems": [
    "Verif.Types.C62_term_roundtrip",
    "Verif.Types.C62_type_roundtrip",
    "Verif.Types.C62_row_variable",
    "Verif.Types.C62_signature_roundtrip",
    "Verif.Types.C62_injective",
    "Verif.Types.C62_read_wellformed",
    "Verif.Types.C62_member_order",
    "Verif.Types.C62_text_roundtrip",
    "Verif.Types.C62_nonfinite_float_refuted",
    "Verif.Types.C62_deep_nesting_refuted",
    "Verif.Types.C62_empty_extension_accepted",
    "Verif.Types.C62_legacy_bound",
    "Verif.Types.C62_bytes_canonical"
   ],
   "note": "JSON documents are trees: how serde_json writes and reads text is not modelled except that floats that are not finite are written as null and that 128 levels of nesting are refused. serde_json parses floats from text without its feature float_roundtrip, so the last digit of a finite float may differ after reading from text; this is outside the model. Readers of structs given as arrays and of whole numbers as floats are not modelled."
  },
  {
   "property": "C63",
   "status": "proved",
   "theorems": [
    "Verif.Types.C63_signature_roundtrip",
    "Verif.Types.C63_term_roundtrip",
    "Verif.Types.C63_injective",
    "Verif.Types.C63_imported_lossless",
    "Verif.Types.C63_second_roundtrip",
    "Verif.Types.C63_nat_bound_refuted",
    "Verif.Types.C63_nested_copyable_refuted",
    "Verif.Types.C63_dotted_name_wrong",
    "Verif.Types.C63_alias_refuted",
    "Verif.Types.C63_index_truncated",
    "Verif.Types.C63_self_reference_refuted"
   ],
   "note": "Exact round trip under the stated conditions; the findings show that each condition is needed. Modules are trees of terms with symbols by name; the text and binary forms of modules are separate properties."
  },
  {
   "property": "C64",
   "status": "proved",
   "theorems": [
    "Verif.Consts.C64_sum_accepts_exactly",
    "Verif.Consts.C64_sum_errors",
    "Verif.Consts.C64_built_well_typed",
    "Verif.Consts.C64_constructors_total",
    "Verif.Consts.C64_tuple_unpacks",
    "Verif.Consts.C64_validate_exact",
    "Verif.Consts.C64_type_is_reported",
    "Verif.Consts.C64_nested_ill_typed_accepted",
    "Verif.Consts.C64_function_type_panics",
    "Verif.Consts.C64_sum_reads_back",
    "Verif.Consts.C64_declared_type_ignored",
    "Verif.Consts.C64_equal_values_equal_types",
    "Verif.Consts.C64_equal_values_hash_alike",
    "Verif.Consts.C64_failed_hash_leaves_hasher",
    "Verif.Consts.C64_hashable_iff"
   ],
   "note": "Findings: validate does not look inside the parts of a constant and reading makes no check, so ill-typed nested constants pass; the type of a function constant with a non-function Hugr panics; a written type that is not a sum is ignored for tag 0."
  },
  {
   "property": "C65",
   "status": "partial",
   "theorems": [
    "Verif.Consts.C65_logic_fold_sound_partial",
    "Verif.Consts.C65_logic_fold_complete",
    "Verif.Consts.C65_eq_partial_wrong",
    "Verif.Consts.C65_tuple_fold_roundtrip",
    "Verif.Consts.C65_partial_tuple_wrong",
    "Verif.Consts.C65_noop_and_nat",
    "Verif.Consts.C65_list_fold_sound_partial",
    "Verif.Consts.C65_list_fold_needs_all",
    "Verif.Consts.C65_length_port_wrong",
    "Verif.Consts.C65_insert_type_wrong",
    "Verif.Consts.C65_external_symbol_panics"
   ],
   "note": "The property fails for logic.Eq with one known input, for MakeTuple with some inputs, for list length (wrong port), for successful list insert (wrong type) and panics on external symbols; these are proved as findings, everything else is proved."
  },
  {
   "property": "C66",
   "status": "partial",
   "theorems": [
    "Verif.IntFold.C66_bool_int",
    "Verif.IntFold.C66_bool_int_width",
    "Verif.IntFold.C66_usize_int",
    "Verif.IntFold.C66_strings",
    "Verif.IntFold.C66_convert_u",
    "Verif.IntFold.C66_convert_s",
    "Verif.IntFold.C66_trunc_u",
    "Verif.IntFold.C66_trunc_s",
    "Verif.IntFold.C66_trunc_non_finite",
    "Verif.IntFold.C66_trunc_out_of_range_partial",
    "Verif.IntFold.C66_trunc_saturates_wrong",
    "Verif.IntFold.C66_convert_trunc",
    "Verif.IntFold.C66_external_bool_wrong",
    "Verif.IntFold.C66_folds_only"
   ],
   "note": "Proved for booleans, usize, strings, integers to floats, floats in range and non-finite floats. Out of range finite floats fold to the error value only for widths below 64 and not below zero for trunc_u: C66_trunc_saturates_wrong shows that they saturate instead. C66_external_bool_wrong: a boolean constant that is not literally true folds to 0. Finite floats are modelled as the rationals they denote; bytecasts have no folder."
  },
  {
   "property": "C67",
   "status": "partial",
   "theorems": [
    "Verif.Patch.C67_untuple_partial",
    "Verif.Patch.C67_rewrites_apply_partial",
    "Verif.Patch.C67_untuple_unused_panics",
    "Verif.Patch.C67_untuple_reused_panics",
    "Verif.Patch.C67_untuple_generic_panics",
    "Verif.Patch.C67_untuple_ordered_panics"
   ],
   "note": "The pass can panic on valid Hugrs (four witnesses); when it does not, results are kept. Missing: the recursive mode; regions that are CFG blocks whose values are used in other blocks."
  },
  {
   "property": "C68",
   "status": "partial",
   "theorems": [
    "Verif.Binary.C68_round_trip_partial",
    "Verif.Binary.C68_injective_partial",
    "Verif.Binary.C68_read_again",
    "Verif.Binary.C68_version",
    "Verif.Binary.C68_alias_constraints_removed",
    "Verif.Binary.C68_wildcard_signature_panics"
   ],
   "note": "Missing: constraints of aliases and wildcard signatures are not kept (two witnesses); the limits of the message library are not modelled."
  },
  {
   "property": "C69",
   "status": "proved",
   "theorems": [
    "Verif.Resolve.C69_resolve_represents",
    "Verif.Resolve.C69_view_resolve",
    "Verif.Resolve.C69_resolve_scoped",
    "Verif.Resolve.C69_view_scoped",
    "Verif.Resolve.C69_float_sign_wrong",
    "Verif.Resolve.C69_root_ignored",
    "Verif.Resolve.C69_view_panics",
    "Verif.Resolve.C69_view_terminates_refuted"
   ],
   "note": "Floats are kept only up to their numeric equality (the table of known terms shares 0.0 and -0.0, C69_float_sign_wrong); modules nested deeper than 65535 scopes are excluded; the kind, ports and signature of the root region are not read (C69_root_ignored)."
  },
  {
   "property": "C70",
   "status": "proved",
   "theorems": [
    "Verif.Builder.C70_wire_inside",
    "Verif.Builder.C70_wire_block",
    "Verif.Builder.C70_wire_error",
    "Verif.Builder.C70_wire_local",
    "Verif.Builder.C70_wire_next_accepted",
    "Verif.Builder.C70_wire_case_panics",
    "Verif.Builder.C70_finish_iff",
    "Verif.Builder.C70_finish_returns",
    "Verif.Builder.C70_build_nodes",
    "Verif.Builder.C70_build_error",
    "Verif.Builder.C70_build_iff",
    "Verif.Builder.C70_add_later",
    "Verif.Builder.C70_dfg_add_input_accepted"
   ],
   "note": "All sequences of calls of FunctionBuilder with plain operations (extension operations, tags, constants, loads of constants), late inputs and outputs and order. Wires between graphs are stated for any partial Hugr. Findings: a wire from inside one nested graph into the next is accepted although no valid Hugr has it; between cases of a conditional it panics; add_input on the builder of a nested graph makes the Hugr invalid; one wire too many is connected to the order port without an error."
  },
  {
   "property": "C71",
   "status": "proved",
   "theorems": [
    "Verif.Types.C71_result",
    "Verif.Types.C71_unchanged",
    "Verif.Types.C71_changed",
    "Verif.Types.C71_valid",
    "Verif.Types.C71_none_left",
    "Verif.Types.C71_no_panic",
    "Verif.Types.C71_succeeds",
    "Verif.Types.C71_again",
    "Verif.Types.C71_variable_kind_ignored"
   ],
   "note": "Finding: the declared kinds cached in variables are not transformed. The state of the value after an error (documented as inconsistent) is not modelled."
  },
  {
   "property": "C72",
   "status": "proved",
   "theorems": [
    "Verif.Patch.C72_peel",
    "Verif.Patch.C72_refused",
    "Verif.Patch.C72_returns",
    "Verif.Patch.C72_valid"
   ],
   "note": "The indices of the new nodes are given, not chosen by the allocator."
  },
  {
   "property": "C73",
   "status": "partial",
   "theorems": [
    "Verif.Patch.C73_remove_load_partial",
    "Verif.Patch.C73_remove_const",
    "Verif.Patch.C73_remove_refused",
    "Verif.Patch.C73_remove_load_panics",
    "Verif.Patch.C73_insert_identity",
    "Verif.Patch.C73_insert_identity_refused",
    "Verif.Patch.C73_identity_unchanged_refuted"
   ],
   "note": "Removal of a load panics on valid Hugrs when an order edge leads to the node, so the theorem excludes that; a failed identity insertion can leave the edge cut, so the last clause is refuted."
  },
  {
   "property": "C74",
   "status": "partial",
   "theorems": [
    "Verif.Patch.C74_cfg_to_dfg_partial",
    "Verif.Patch.C74_cfg_to_dfg_valid_partial",
    "Verif.Patch.C74_cfg_to_dfg_returns_partial",
    "Verif.Patch.C74_cfg_to_dfg_only",
    "Verif.Patch.C74_merge_constant_panics",
    "Verif.Patch.C74_constant_lost_refuted",
    "Verif.Patch.C74_tuple_types"
   ],
   "note": "Merging blocks and moving blocks out of the control-flow graph are not part of this (see C76 and C79). Constants that are children of the control-flow graph are excluded: the code panics or gives an invalid Hugr (findings). Entry blocks with several successors that all lead to the exit do not have this form, since the code wants a single edge."
  },
  {
   "property": "C75",
   "status": "partial",
   "theorems": [
    "Verif.Patch.C75_outlined_partial",
    "Verif.Patch.C75_refused_partial",
    "Verif.Patch.C75_returns_partial",
    "Verif.Patch.C75_valid_partial",
    "Verif.Patch.C75_entrypoint_panics",
    "Verif.Patch.C75_exit_block_accepted",
    "Verif.Patch.C75_value_used_outside_refuted",
    "Verif.Patch.C75_unreachable_exit_refuted"
   ],
   "note": "Shape of the result, which sets are refused, results of functions and validity, for sets of blocks without the exit whose entry is not the entrypoint and, for results and validity, whose values are used only inside; validity also needs that the last block can be reached if the first can. The exclusions are findings: the code panics or gives an invalid Hugr."
  },
  {
   "property": "C76",
   "status": "partial",
   "theorems": [
    "Verif.Patch.C76_entry_removed",
    "Verif.Patch.C76_results_removed",
    "Verif.Patch.C76_order_wrong",
    "Verif.Patch.C76_inner_wrong",
    "Verif.Patch.C76_entry_order_wrong",
    "Verif.Patch.C76_exit_moved_partial",
    "Verif.Patch.C76_exit_moved_valid_partial",
    "Verif.Patch.C76_exit_moved_returns_partial",
    "Verif.Patch.C76_entry_order_sources_partial",
    "Verif.Patch.C76_entry_links_partial",
    "Verif.Patch.C76_entry_uses_found_partial",
    "Verif.Patch.C76_entry_moved_partial",
    "Verif.Patch.C76_entry_ordered_partial"
   ],
   "note": "Refuted in five cases, each with a valid Hugr whose normalization is not valid: the entry block is the last block; the last block takes two values less than there are results; it uses values from outside the control-flow graph; something nested in it uses values of another block; another block uses values from outside when the entry block is moved. For the last block in the other cases: the result is described, is valid, and functions return what they returned before. For the entry block: putting its contents into a dataflow graph before the control-flow graph and adding the order edges does not panic and the result is described, and the nodes that get order edges are those that are used outside of the block. Missing: the entry block after that (inlining the dataflow graph, validity and what functions return), and moving both blocks."
  },
  {
   "property": "C77",
   "status": "partial",
   "theorems": [
    "Verif.Patch.C77_accepted_partial",
    "Verif.Patch.C77_removed_nodes",
    "Verif.Patch.C77_no_panic",
    "Verif.Patch.C77_absent_port_refuted",
    "Verif.Patch.C77_listed_twice_panics",
    "Verif.Patch.C77_merge_with_itself_panics"
   ],
   "note": "The check accepts exactly the replacements described, except that a control-flow edge may name a source port that does not exist (refuted with a witness); the removed nodes are exactly those described; the check does not panic unless a node is listed twice for removal (witness). merge_basic_blocks builds a replacement that is never accepted for a block that goes only to itself, and panics."
  },
  {
   "property": "C78",
   "status": "partial",
   "theorems": [
    "Verif.Patch.C78_applied_partial",
    "Verif.Patch.C78_same_target_refuted",
    "Verif.Patch.C78_absent_port_panics",
    "Verif.Patch.C78_adopter_outside_panics",
    "Verif.Patch.C78_source_outside_refuted",
    "Verif.Patch.C78_entrypoint_panics",
    "Verif.Patch.C78_nothing_adopted_panics"
   ],
   "note": "Applying an accepted replacement succeeds and gives what is described (hierarchy, order of children, operations, ports, metadata, links), under five conditions that the check does not look at: source ports of control-flow edges exist, no two edges go into one port of a node that stays, the edges and adoptions name nodes below the root of the replacement, the entrypoint is not removed, adopted nodes have children. Without any one of them it is refuted with a witness: an accepted replacement in a valid Hugr for which applying fails or panics, with nothing else wrong. Not described: how many copies of a link there are."
  },
  {
   "property": "C79",
   "status": "partial",
   "theorems": [
    "Verif.Patch.C79_merge_blocks_partial"
   ],
   "note": "Shown for one merge: the replacement is made, accepted and applied without a panic, and the result is described node by node and link by link, with the order of children: the new block is where the first one was, so an entry block stays one. Missing: that the result is valid and returns the same, the inlining of the two dataflow graphs afterwards (see C51 to C53 for InlineDFG), and the loop over all blocks. Blocks that go to themselves and constants with one use are excluded: the code panics there (C77_merge_with_itself_panics, C74_merge_constant_panics)."
  }
 ]
}
