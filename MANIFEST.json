{
 "claims": [
  {
   "property": "C01",
   "status": "proved",
   "theorems": [
    "Verif.Rt.C01_namespaces_in_scope",
    "Verif.Rt.C01_answers_are_maps"
   ],
   "note": "Helper and quick-xml scope stack refined to a stack-of-scopes specification, for every event list."
  },
  {
   "property": "C02",
   "status": "proved",
   "theorems": [
    "Verif.Rt.C02_skip_exactly_one_element",
    "Verif.Rt.C02_skip_empty_element",
    "Verif.Rt.C02_unknown_element_rejected"
   ],
   "note": "For every element tree and every continuation; also that the element is rejected when any content is not allowed."
  },
  {
   "property": "C03",
   "status": "partial",
   "theorems": [
    "Verif.Gen.C03_empty_struct_terminates",
    "Verif.Gen.C03_open_struct_diverges_on_truncated",
    "Verif.Gen.C03_generated_terminates",
    "Verif.Gen.C03_generated_calls_return",
    "Verif.Gen.C03_open_sequence_diverges_on_truncated",
    "Verif.Gen.C03_open_sequence_truncated_document",
    "Verif.Gen.C03_open_all_diverges_on_truncated",
    "Verif.Gen.C03_open_choice_diverges_on_truncated",
    "Verif.Rt.C03_deserialize_terminates_partial",
    "Verif.Rt.C03_element_diverges_on_truncated",
    "Verif.Rt.C03_simple_types_terminate"
   ],
   "note": "Terminates for every deserializer that ends at end of file, and every deserializer generated for a table of types without open content ends there (C03_generated_terminates), as do empty types. The full claim is false: xs:any elements, sequences and empty structs with open content do not end on truncated input (C03_element_diverges_on_truncated, C03_open_sequence_diverges_on_truncated, C03_open_struct_diverges_on_truncated)."
  },
  {
   "property": "C04",
   "status": "proved",
   "theorems": [
    "Verif.Gen.C04_empty_struct_reads",
    "Verif.Gen.C04_empty_struct_rejects",
    "Verif.Gen.C04_complex_simple_content",
    "Verif.Gen.C04_complex_empty_tag",
    "Verif.Rt.C04_simple_content",
    "Verif.Rt.C04_chunking_irrelevant",
    "Verif.Rt.C04_nested_element_rejected"
   ],
   "note": "For every list of content events, for elements of simple types, for complex types with simple content and attributes, and for types without content."
  },
  {
   "property": "C05",
   "status": "partial",
   "theorems": [
    "Verif.Rt.C05_list_tokens_partial",
    "Verif.Rt.C05_adjacent_separators_wrong",
    "Verif.Rt.C05_serialize_deserialize",
    "Verif.Rt.C05_array_size"
   ],
   "note": "Holds when the text has no two adjacent separators; otherwise false (witness), because the text is split at every blank."
  },
  {
   "property": "C06",
   "status": "partial",
   "theorems": [
    "Verif.Rt.C06_values_unchanged_partial",
    "Verif.Rt.C06_finish_vec_never_rejects",
    "Verif.Rt.C06_bounds_not_enforced",
    "Verif.Rt.C06_array_exact",
    "Verif.Rt.C06_default_fill",
    "Verif.Rt.C06_array_default_partial",
    "Verif.Rt.C06_array_default_panics"
   ],
   "note": "finish_vec never rejects (finding), arrays enforce exactly N, finish_arr_default panics with more than N values (finding)."
  },
  {
   "property": "C07",
   "status": "partial",
   "theorems": [
    "Verif.Rt.C07_accepted_iff",
    "Verif.Rt.C07_order_independent",
    "Verif.Rt.C07_reader_errors_reported",
    "Verif.Rt.C07_namespace_declaration_iff",
    "Verif.Rt.C07_globally_allowed_iff",
    "Verif.Rt.C07_matching_partial",
    "Verif.Rt.C07_other_name_accepted"
   ],
   "note": "Acceptance characterised for every attribute list and independent of order; attributes are matched by local name when their prefix is unbound or absent, so a foreign attribute can be taken for a declared one (C07_other_name_accepted)."
  },
  {
   "property": "C08",
   "status": "proved",
   "theorems": [
    "Verif.Rt.C08_true_iff",
    "Verif.Rt.C08_false_iff",
    "Verif.Rt.C08_error_iff",
    "Verif.Rt.C08_round_trip"
   ],
   "note": "Over all strings."
  },
  {
   "property": "C09",
   "status": "partial",
   "theorems": [
    "Verif.Gen.Ex.C09_optional_dynamic_rejected",
    "Verif.Gen.C09_nested_sequence_feeds",
    "Verif.Gen.C09_nested_group_reads",
    "Verif.Gen.C09_nested_sequence_accepts",
    "Verif.Gen.C09_sequence_feeds",
    "Verif.Gen.C09_empty_tag_feeds",
    "Verif.Gen.C09_sequence_accepts"
   ],
   "note": "For every struct type with xs:sequence content, every document with the children in order, the counts within bounds and no two particles competing for a child is read, each field getting its values in document order. Particles are elements and groups: choices, and sequences nested to any depth, optional or repeated (C09_nested_*: a nested sequence keeps its state until a foreign tag or the end tag comes, and its value is stored then). An element may be named again after one with a fixed count. Finding: a sequence with an absent optional dynamic element is rejected. Missing: xs:any and text particles, mixed content, a required group of optional elements without any of them."
  },
  {
   "property": "C10",
   "status": "partial",
   "theorems": [
    "Verif.Gen.Ex.C10_list_minimum_not_enforced",
    "Verif.Gen.Ex.C10_reference_ignored",
    "Verif.Gen.Ex.C10_nesting_leak",
    "Verif.Gen.C10_sequence_sound_partial"
   ],
   "note": "Proved for children that never hand a tag back to the parent (all simple-content children): everything accepted is a sequence of children in order, upper bounds and single fields enforced. False in full: C10_list_minimum_not_enforced, C10_nesting_leak, C10_reference_ignored are counterexamples."
  },
  {
   "property": "C11",
   "status": "partial",
   "theorems": [
    "Verif.Gen.C11_all_feeds",
    "Verif.Gen.C11_all_accepts",
    "Verif.Gen.C11_group_returns_end",
    "Verif.Gen.C11_interrupted_child_stored",
    "Verif.Gen.C11_order_independent",
    "Verif.Gen.C11_order_across_fields",
    "Verif.Gen.C11_all_sound_partial",
    "Verif.Gen.Ex.C11_maximum_not_enforced",
    "Verif.Gen.Ex.C11_second_dynamic_unreachable"
   ],
   "note": "For every list of fields (elements, and groups or substitution groups behind them) any order of the children within the bounds is read exactly, permutations give the same value; accepted documents with simple-content fields are exactly such contents, duplicates and missing required elements are rejected. False: bounds of repeated elements (C11_maximum_not_enforced) and two substitution groups in one xs:all (C11_second_dynamic_unreachable). Text, any and mixed content in xs:all not modelled."
  },
  {
   "property": "C12",
   "status": "partial",
   "theorems": [
    "Verif.Gen.C12_choice_feeds",
    "Verif.Gen.C12_choice_accepts",
    "Verif.Gen.C12_dynamic_feeds",
    "Verif.Gen.C12_group_returns_end",
    "Verif.Gen.C12_content_in_order",
    "Verif.Gen.Ex.C12_maximum_not_enforced",
    "Verif.Gen.Ex.C12_repeated_bounds_not_enforced",
    "Verif.Gen.Ex.C12_skip_panics",
    "Verif.Gen.Ex.C12_second_dynamic_unreachable",
    "Verif.Gen.C12_choice_sound_partial",
    "Verif.Gen.C12_missing_content",
    "Verif.Gen.C12_group_feeds",
    "Verif.Gen.C12_content_feeds",
    "Verif.Gen.C12_repeated_choice_feeds",
    "Verif.Gen.C12_repeated_choice_accepts",
    "Verif.Gen.C12_nested_group_reads",
    "Verif.Gen.C12_nested_choice_feeds",
    "Verif.Gen.C12_nested_content_feeds",
    "Verif.Gen.C12_nested_choice_accepts",
    "Verif.Gen.C12_nested_content_accepts"
   ],
   "note": "For every generated enum whose alternatives are elements or groups (C12_nested_*: sequences and choices, nested to any depth): children of one alternative give the variant of the first alternative with that name, or of the first group that takes them; children of two alternatives, two children of a single alternative and missing content are rejected (alternatives that are elements); a repeated choice or sequence gives its values in document order; dynamic types read the first derived type that matches. Findings: bounds of repeated alternatives and repeated choices are not enforced, a skipped element makes the generated code panic, a second dynamic alternative is never read. Missing: text and xs:any alternatives, mixed content, soundness for alternatives with nested content, repeated groups as alternatives."
  },
  {
   "property": "C13",
   "status": "partial",
   "theorems": [
    "Verif.Gen.Tab.C13_dynamic_round_trip_partial",
    "Verif.Gen.Tab.C13_global_round_trip_partial",
    "Verif.Gen.Tab.C13_local_round_trip_partial",
    "Verif.Gen.Tab.C13_none_round_trip_partial",
    "Verif.Gen.Tab.C13_local_foreign_type_unreadable",
    "Verif.Gen.Tab.C13_local_attribute_unreadable",
    "Verif.Gen.Tab.C13_nested_dynamic_round_trip_partial",
    "Verif.Gen.Tab.C13_nested_global_round_trip_partial",
    "Verif.Gen.Tab.C13_nested_local_round_trip_partial",
    "Verif.Gen.Tab.C13_nested_none_round_trip_partial",
    "Verif.Gen.C13_struct_round_trip",
    "Verif.Gen.C13_all_round_trip",
    "Verif.Gen.C13_content_round_trip",
    "Verif.Gen.C13_enum_round_trip",
    "Verif.Gen.Tab.C13_document_round_trip_partial",
    "Verif.Gen.Tab.C13_local_mode_unreadable",
    "Verif.Gen.Tab.C13_nested_round_trip_partial"
   ],
   "note": "Proved for every table of (possibly recursive) types: structs with attributes whose content is a sequence, xs:all, a repeated choice or a simple value, and enums that represent an element; sequences and choices may contain repeated or optional sequences and choices, to any depth; if a child can only belong to one particle, the simple values survive as text, and every prefix is declared. What is written is a document that the table describes, and it is read back as the same value. For each of the modes None, Local, Global and Dynamic a theorem gives conditions on the schema under which prefixes are declared. Missing: xs:any, mixed and nillable content, dynamic types. False for NamespaceSerialization::Local with names of other namespaces and with qualified attributes of the default namespace (three negations)."
  },
  {
   "property": "C14",
   "status": "partial",
   "theorems": [
    "Verif.Gen.C14_field_balanced",
    "Verif.Gen.C14_generated_balanced",
    "Verif.Gen.Tab.C14_documents_balanced",
    "Verif.Rt.C14_element_balanced",
    "Verif.Rt.C14_content_balanced",
    "Verif.Rt.C14_iter_balanced",
    "Verif.Rt.C14_text_balanced",
    "Verif.Rt.C14_mixed_balanced",
    "Verif.Rt.C14_nillable_value_balanced",
    "Verif.Rt.C14_nil_restores_iff",
    "Verif.Rt.C14_nil_leaks_scope",
    "Verif.Rt.C14_xsi_balanced_partial",
    "Verif.Rt.C14_xsi_empty_leaks_scope",
    "Verif.Rt.C14_any_simple_type_leaks_scope",
    "Verif.Rt.C14_wildcard_balanced"
   ],
   "note": "Proved for every xs:any element tree, for simple contents, lists and options, Text, Mixed, Nillable with a value, dynamic types with a start tag, for generated structs and enums, and for whole documents of every table of types. False for nil elements, dynamic types with an empty tag and AnySimpleType (negations)."
  },
  {
   "property": "C15",
   "status": "partial",
   "theorems": [
    "Verif.Rt.C15_resolves_iff",
    "Verif.Rt.C15_resolves_partial",
    "Verif.Rt.C15_qname_prefix_resolves_partial",
    "Verif.Rt.C15_declared_once_partial",
    "Verif.Rt.C15_scope_restored",
    "Verif.Rt.C15_shadowed_prefix",
    "Verif.Rt.C15_declared_twice"
   ],
   "note": "Exact characterisation for every history; holds when every prefix is used for one namespace; two findings (shadowed prefix, repeated declaration)."
  },
  {
   "property": "C16",
   "status": "proved",
   "theorems": [
    "Verif.Rt.C16_no_markup",
    "Verif.Rt.C16_text_round_trip",
    "Verif.Rt.C16_trimmed_text_unchanged",
    "Verif.Rt.C16_attribute_round_trip"
   ],
   "note": "Over all strings and all chunkings."
  },
  {
   "property": "C17",
   "status": "partial",
   "theorems": [
    "Verif.Rt.C17_hex_round_trip",
    "Verif.Rt.C17_hex_decode_accepts",
    "Verif.Rt.C17_hex_string_len",
    "Verif.Rt.C17_any_hex_round_trip",
    "Verif.Rt.C17_any_hex_panics_and_accepts_sign",
    "Verif.Rt.C17_any_hex_odd_panics",
    "Verif.Rt.C17_base64_round_trip",
    "Verif.Rt.C17_base64_string_len"
   ],
   "note": "Round trips proved; AnySimpleType hex decoding panics for odd length and accepts a plus sign (findings)."
  },
  {
   "property": "C18",
   "status": "partial",
   "theorems": [
    "Verif.Rt.C18_structure_partial",
    "Verif.Rt.C18_namespaces_partial",
    "Verif.Rt.C18_namespace_changed",
    "Verif.Rt.C18_references_lost"
   ],
   "note": "Structure and (with one namespace per prefix) namespaces survive for content without references, PIs and comments. Findings: entity references are dropped, a shadowed prefix changes namespace."
  },
  {
   "property": "C19",
   "status": "partial",
   "theorems": [
    "Verif.Gen.C19_mixed_text_attribution",
    "Verif.Gen.C19_text_round_trip",
    "Verif.Gen.C19_mixed_round_trip_partial",
    "Verif.Gen.C19_mixed_empty_text_lost",
    "Verif.Gen.C19_mixed_root_rejected",
    "Verif.Gen.C19_nillable_value",
    "Verif.Gen.C19_nillable_value_round_trip",
    "Verif.Gen.C19_nil_element",
    "Verif.Gen.C19_nil_round_trip_iff",
    "Verif.Gen.C19_unqualified_nil",
    "Verif.Gen.Ex.C19_second_nil_lost"
   ],
   "note": "Text before and after elements is attributed to the right element; Text, Mixed and Nillable round trips for any inner type that round trips; exact condition for nil. False for empty texts, Mixed at the root, repeated nil elements and unqualified nil attributes (negations)."
  },
  {
   "property": "C20",
   "status": "partial",
   "theorems": [
    "Verif.Rt.C20_refl",
    "Verif.Rt.C20_symm",
    "Verif.Rt.C20_trans_partial",
    "Verif.Rt.C20_hash_partial",
    "Verif.Rt.C20_resolved_eq_iff",
    "Verif.Rt.C20_not_transitive",
    "Verif.Rt.C20_hash_inconsistent"
   ],
   "note": "Equality is not transitive and the hash is inconsistent when resolved and unresolved names are mixed (findings)."
  },
  {
   "property": "C21",
   "status": "proved",
   "theorems": [
    "Verif.Rt.C21_order",
    "Verif.Rt.C21_unique_keys",
    "Verif.Rt.C21_values",
    "Verif.Rt.C21_push_duplicate",
    "Verif.Rt.C21_insert_returns_old"
   ],
   "note": "Over all operation histories."
  },
  {
   "property": "C22",
   "status": "partial",
   "theorems": [
    "Verif.Rt.C22_replace",
    "Verif.Rt.C22_collapse_tokens",
    "Verif.Rt.C22_collapse_idempotent",
    "Verif.Rt.C22_collapse_xml_partial",
    "Verif.Rt.C22_collapse_removes_no_break_space",
    "Verif.Rt.C22_total_digits_sound",
    "Verif.Rt.C22_fraction_digits_sound",
    "Verif.Rt.C22_total_digits_complete_partial",
    "Verif.Rt.C22_fraction_digits_complete_partial",
    "Verif.Rt.C22_total_digits_rejects_valid"
   ],
   "note": "Replace exact; collapse gives the Unicode-white-space tokens and is idempotent; digits sound, complete for canonical literals only. Findings: no-break spaces collapsed, 0.5/007/1.0/+5/.5 rejected."
  },
  {
   "property": "C23",
   "status": "partial",
   "theorems": [
    "Verif.Rt.C23_error_path_is_open_elements",
    "Verif.Rt.C23_every_prefix_is_a_position",
    "Verif.Rt.C23_end_tag_error_names_parent"
   ],
   "note": "Exact path for every event except errors raised at an end tag, which report the parent path (C23_end_tag_error_names_parent)."
  },
  {
   "property": "C24",
   "status": "proved",
   "theorems": [
    "Verif.Parser.C24_loading_ends",
    "Verif.Parser.C24_each_once",
    "Verif.Parser.C24_dependencies_point",
    "Verif.Parser.C24_references_loaded",
    "Verif.Parser.C24_reachable_loaded"
   ],
   "note": "Every session of builder calls over every (possibly cyclic) document graph with finitely many locations; the resolver and the documents are a parameter. Reachability is stated for resolvers that look at the requested and current location only."
  },
  {
   "property": "C25",
   "status": "partial",
   "theorems": [
    "Verif.Parser.C25_prefixes_distinct_partial",
    "Verif.Parser.C25_generated_prefix_clashes",
    "Verif.Parser.C25_alternatives_order"
   ],
   "note": "Proved for every session, every order of the alternatives and every flag, unless an offered prefix looks like a generated one; then it is false (C25_generated_prefix_clashes)."
  },
  {
   "property": "C26",
   "status": "partial",
   "theorems": [
    "Verif.Parser.C26_own_identity_partial",
    "Verif.Parser.C26_resolver_change_panics"
   ],
   "note": "Proved for every session without a change of the resolver after a schema was added; false otherwise (C26_resolver_change_panics)."
  },
  {
   "property": "C27",
   "status": "partial",
   "theorems": [
    "Verif.Parser.C27_first_reference_partial",
    "Verif.Parser.C27_second_include_ignored",
    "Verif.Parser.C27_mismatch_accepted",
    "Verif.Parser.C27_import_inherits"
   ],
   "note": "Proved for the reference through which a document is first met; the statement is false for later references and for imports (three negations)."
  },
  {
   "property": "C28",
   "status": "proved",
   "theorems": [
    "Verif.Models.C28_resolve_exact",
    "Verif.Models.C28_unannounced_schema_missed"
   ],
   "note": "For every history of announcements and insertions and every partially known identifier, for schemas announced with add_schema before use. C28_unannounced_schema_missed shows that the announcement is needed."
  },
  {
   "property": "C29",
   "status": "proved",
   "theorems": [
    "Verif.Models.C29_first_match",
    "Verif.Models.C29_sees_visible",
    "Verif.Models.C29_dependency_recorded"
   ],
   "note": "First match in the depth-first order of the visible schemas, what is visible, and the recorded dependencies, for every cache."
  },
  {
   "property": "C30",
   "status": "proved",
   "theorems": [
    "Verif.Models.C30_iter_is_dfs",
    "Verif.Models.C30_each_once"
   ],
   "note": "Ends; yields the first definition of each (kind, name) in depth-first order; every visible definition is covered once."
  },
  {
   "property": "C31",
   "status": "partial",
   "theorems": [
    "Verif.Interp.C31_complete",
    "Verif.Interp.C31_after_required",
    "Verif.Interp.C31_cycle_rejected",
    "Verif.Interp.C31_error_justified",
    "Verif.Interp.C31_ends_partial",
    "Verif.Interp.C31_cycle_reported_partial",
    "Verif.Interp.C31_circular_group_hangs",
    "Verif.Interp.C31_error_names_other"
   ],
   "note": "The list holds every listed component exactly once and after the components it strongly requires, errors only arise from cycles, and a cycle of strong dependencies between listed components is rejected. The order is proved to be computed under the assumption that no chain of lazy dependencies comes back to itself (C31_ends_partial); C31_circular_group_hangs shows that a group containing itself reached by such a chain makes the search run for ever, C31_error_names_other that the reported name need not lie on the cycle."
  },
  {
   "property": "C32",
   "status": "partial",
   "theorems": [
    "Verif.Interp.C32_nested_fresh",
    "Verif.Interp.C32_nested_total_partial",
    "Verif.Interp.C32_element_kept",
    "Verif.Interp.C32_distinct",
    "Verif.Interp.C32_all_distinct",
    "Verif.Interp.C32_conflicts_exact",
    "Verif.Interp.C32_shown_distinct_partial",
    "Verif.Interp.C32_any_clash",
    "Verif.Interp.C32_renamed_clash",
    "Verif.Interp.C32_prefix_clash",
    "Verif.Interp.C32_group_then_element_panics",
    "Verif.Interp.C32_many_clashes_overflow"
   ],
   "note": "However elements, nested groups and wildcards are added, members have pairwise distinct identifiers, a clashing nested group gets a fresh identifier and only display names of others change; resolving conflicts is characterised exactly (C32_conflicts_exact). The names in the generated code are proved distinct for one namespace and names without underscores (C32_shown_distinct_partial); C32_any_clash, C32_renamed_clash, C32_prefix_clash show clashes between generated and chosen names, C32_group_then_element_panics a panic, C32_many_clashes_overflow an arithmetic overflow when a group is used 32 times in one list."
  },
  {
   "property": "C33",
   "status": "proved",
   "theorems": [
    "Verif.Meta.C33_resolved_iff_defined",
    "Verif.Meta.C33_resolved_is_end_of_chain",
    "Verif.Meta.C33_acyclic_resolved_is_no_synonym",
    "Verif.Meta.C33_acyclic_idempotent",
    "Verif.Meta.C33_acyclic_synonym_same",
    "Verif.Meta.C33_loop_not_idempotent"
   ],
   "note": "Exact characterisation for every table, loops and dangling references included. C33_loop_not_idempotent shows that idempotence needs the absence of loops (A = B, B = A resolve to each other)."
  },
  {
   "property": "C34",
   "status": "partial",
   "theorems": [
    "Verif.Meta.C34_equal_iff_same_up_to_synonyms",
    "Verif.Meta.C34_symmetric",
    "Verif.Meta.C34_transitive",
    "Verif.Meta.C34_reflexive_partial",
    "Verif.Meta.C34_not_reflexive",
    "Verif.Meta.C34_equal_hash"
   ],
   "note": "Equality of types is exactly equality up to synonyms for comparable types, symmetric, transitive and compatible with the hash. Reflexivity is proved for types that contain no custom type and no text element (C34_reflexive_partial); for those it is false (C34_not_reflexive)."
  },
  {
   "property": "C35",
   "status": "proved",
   "theorems": [
    "Verif.Opt.C35_terminates",
    "Verif.Opt.C35_names_kept",
    "Verif.Opt.C35_untouched_or_reference",
    "Verif.Opt.C35_no_duplicates_left",
    "Verif.Opt.C35_synonyms_kept",
    "Verif.Opt.C35_structurally_equal",
    "Verif.Opt.C35_same_documents_partial",
    "Verif.Opt.C35_loop_never_ends",
    "Verif.Opt.C35_different_substitutions_merged"
   ],
   "note": "For tables without typedef loops and undefined targets (Ok): termination with a quadratic bound, names kept, only references introduced, no equal definitions left, every name stands for a structurally equal type. C35_same_documents_partial adds that accepted documents are unchanged unless dynamic types with differently named derived types are merged; C35_different_substitutions_merged and C35_loop_never_ends show what happens outside the hypotheses."
  },
  {
   "property": "C36",
   "status": "partial",
   "theorems": [
    "Verif.Opt.C36_typedef_recursion_ends",
    "Verif.Opt.C36_loop_never_ends",
    "Verif.Opt.C36_stays_well_formed",
    "Verif.Opt.C36_same_names",
    "Verif.Opt.C36_same_up_to_synonyms",
    "Verif.Opt.C36_same_documents",
    "Verif.Opt.C36_no_typedef_mentioned_partial",
    "Verif.Opt.C36_simple_base_kept",
    "Verif.Opt.C36_idempotent"
   ],
   "note": "No mention changes what it stands for, documents are unchanged, the pass is idempotent. That no mention of a plain typedef remains is proved for the mentions the pass rewrites (C36_no_typedef_mentioned_partial); bases of simple types, repeated references and derived-type keys keep theirs (C36_simple_base_kept)."
  },
  {
   "property": "C37",
   "status": "partial",
   "theorems": [
    "Verif.Opt.C37_never_panics",
    "Verif.Opt.C37_ends",
    "Verif.Opt.C37_members",
    "Verif.Opt.C37_flat",
    "Verif.Opt.C37_accepts_no_less",
    "Verif.Opt.C37_same_documents_partial",
    "Verif.Opt.C37_same_choice_partial",
    "Verif.Opt.C37_self_union_never_ends",
    "Verif.Opt.C37_facets_lost"
   ],
   "note": "Flattening ends for every table without cyclic union membership, keeps the leaves in order, leaves no nested union; texts and the chosen member are kept when no union on the way has facets (NoFacets). False in general: self-containing unions never end, facets of nested unions are lost (both proved)."
  },
  {
   "property": "C38",
   "status": "proved",
   "theorems": [
    "Verif.Opt.C38_first_of_each_kept",
    "Verif.Opt.C38_same_documents",
    "Verif.Opt.C38_same_choice",
    "Verif.Opt.C38_same_choice_back"
   ],
   "note": "For every table whose references are acyclic and closed (the pass resolves members through the typedef map, which ends only for those)."
  },
  {
   "property": "C39",
   "status": "proved",
   "theorems": [
    "Verif.Opt.C39_exactly_empty_variants_removed",
    "Verif.Opt.C39_empty_variants_idempotent",
    "Verif.Opt.C39_empty_variants_accept_no_more",
    "Verif.Opt.C39_only_empty_text_lost",
    "Verif.Opt.C39_empty_text_lost",
    "Verif.Opt.C39_exactly_empty_enums_replaced",
    "Verif.Opt.C39_empty_enums_idempotent",
    "Verif.Opt.C39_empty_enums_accept_no_less",
    "Verif.Opt.C39_exactly_small_unions_replaced",
    "Verif.Opt.C39_small_unions_idempotent",
    "Verif.Opt.C39_small_unions_accept_no_less",
    "Verif.Opt.C39_small_unions_same_texts"
   ],
   "note": "Exact effect per entry, idempotence and effect on accepted documents for all three passes; the empty text is lost by the first pass (proved with a witness)."
  },
  {
   "property": "C40",
   "status": "partial",
   "theorems": [
    "Verif.Opt.C40_one_type_partial",
    "Verif.Opt.C40_accepts_no_less_partial",
    "Verif.Opt.C40_ends",
    "Verif.Opt.C40_cyclic_group_diverges",
    "Verif.Opt.C40_repeated_alternative_lost",
    "Verif.Opt.C40_order_lost",
    "Verif.Opt.C40_empty_content_lost"
   ],
   "note": "Flattening one complex type and the whole pass never rejects an accepted document, for every nesting and all occurrence bounds, if the content group belongs to one type, names are distinct wherever the order is kept (Separate), nested choices are not empty and equally named wildcards agree; flattening ends unless a group contains itself. Without these conditions the property is false: C40_repeated_alternative_lost, C40_order_lost, C40_empty_content_lost, C40_cyclic_group_diverges."
  },
  {
   "property": "C41",
   "status": "partial",
   "theorems": [
    "Verif.Opt.C41_one_type_partial",
    "Verif.Opt.C41_accepts_no_less_partial",
    "Verif.Opt.C41_bounds",
    "Verif.Opt.C41_counts_lost",
    "Verif.Opt.C41_shared_choice_lost",
    "Verif.Opt.C41_synonym_content_panics"
   ],
   "note": "Proved for whole tables in which no choice is shared and no type repeats both its choice and an alternative a limited number of times. False otherwise: counts are combined by maximum instead of product (witness), a shared choice loses its repetitions for the second type (witness), and a synonym as content panics (witness)."
  },
  {
   "property": "C42",
   "status": "partial",
   "theorems": [
    "Verif.Opt.C42_merge_same_types_partial",
    "Verif.Opt.C42_merge_ends",
    "Verif.Opt.C42_merge_entries",
    "Verif.Opt.C42_convert_ends",
    "Verif.Opt.C42_convert_keeps_others",
    "Verif.Opt.C42_convert_same_selection_partial",
    "Verif.Opt.C42_convert_same_types_partial",
    "Verif.Opt.C42_same_name_lost",
    "Verif.Opt.C42_self_derived_diverges"
   ],
   "note": "Merging keeps exactly the selectable concrete types if no dynamic type is derived from itself and equal names list equal types (else negations: divergence); converting keeps selection by tag, xsi:type and default if no element and type of one dynamic type share a name (else negation: the second is lost)."
  },
  {
   "property": "C43",
   "status": "partial",
   "theorems": [
    "Verif.Occurs.C43_add_exact",
    "Verif.Occurs.C43_mul_sound",
    "Verif.Occurs.C43_mul_tight",
    "Verif.Occurs.C43_mul_zero_unbounded_not_tight",
    "Verif.Occurs.C43_container_complete",
    "Verif.Occurs.C43_container_exact",
    "Verif.Occurs.C43_container_vector_needed",
    "Verif.Occurs.C43_cmp_is_inclusion",
    "Verif.Occurs.C43_max_is_union"
   ],
   "note": "Addition exact; multiplication exact except 0 times unbounded (finding)."
  },
  {
   "property": "C44",
   "status": "partial",
   "theorems": [
    "Verif.Naming.C44_format_ident_valid_partial",
    "Verif.Naming.C44_missing_keywords",
    "Verif.Naming.C44_underscore_and_empty"
   ],
   "note": "Holds except for the reserved words async/await/dyn missing from the table and for names without any identifier character."
  },
  {
   "property": "C45",
   "status": "partial",
   "theorems": [
    "Verif.Naming.C45_numbered_names_unique",
    "Verif.Naming.C45_collision_across_texts"
   ],
   "note": "Unique for one base name; names of different base texts can collide (finding)."
  },
  {
   "property": "C46",
   "status": "partial",
   "theorems": [
    "Verif.Code.C46_relative_path_correct",
    "Verif.Code.C46_absolute_path",
    "Verif.Code.C46_no_needless_super",
    "Verif.Code.C46_display_parse_partial",
    "Verif.Code.C46_parse_absolute",
    "Verif.Code.C46_parse_absolute_iff",
    "Verif.Code.C46_display_loses_absolute"
   ],
   "note": "Relative paths proved; display loses the absolute flag (finding)."
  },
  {
   "property": "C47",
   "status": "partial",
   "theorems": [
    "Verif.Code.C47_usings_exact_partial",
    "Verif.Code.C47_single_segment_dropped"
   ],
   "note": "Exact for paths with at least two segments; single segment paths are dropped (finding)."
  },
  {
   "property": "C48",
   "status": "partial",
   "theorems": [
    "Verif.Code.C48_write_each_module_once",
    "Verif.Code.C48_file_names_distinct",
    "Verif.Code.C48_mod_name_clash"
   ],
   "note": "One write per module at distinct paths, except that a module named mod clashes with its parent (finding)."
  },
  {
   "property": "C49",
   "status": "partial",
   "theorems": [
    "Verif.Generate.C49_cycle_boxed_partial",
    "Verif.Generate.C49_short_cycles_boxed_partial",
    "Verif.Generate.C49_forced_boxes",
    "Verif.Generate.C49_long_cycle_unboxed",
    "Verif.Generate.C49_alias_cycle_unboxed"
   ],
   "note": "Cycles whose way back to the last generated type breaks the order of generation at most once (this includes all cycles of up to three types with elements) and forced boxes. The full claim is false: C49_long_cycle_unboxed (four types) and C49_alias_cycle_unboxed."
  },
  {
   "property": "C50",
   "status": "proved",
   "theorems": [
    "Verif.Generate.C50_generation_ends",
    "Verif.Generate.C50_generates_needed",
    "Verif.Generate.C50_once",
    "Verif.Generate.C50_no_dangling"
   ],
   "note": "Requests of every kind of type, cache, queue and traits; the rendering of values and custom generators are parameters. Several calls and types provided by the user are covered."
  },
  {
   "property": "C51",
   "status": "partial",
   "theorems": [
    "Verif.Interp.C51_extension_partial",
    "Verif.Interp.C51_extension_all_partial",
    "Verif.Interp.C51_empty_base",
    "Verif.Interp.C51_no_particle",
    "Verif.Interp.C51_repeated_base",
    "Verif.Interp.C51_optional_extension",
    "Verif.Interp.C51_choice_merged",
    "Verif.Interp.C51_choice_appended",
    "Verif.Interp.C51_common_name",
    "Verif.Interp.C51_empty_extension_widens"
   ],
   "note": "Proved: a once-occurring sequence extended by a once-occurring sequence without common elements, or by any choice/all, accepts exactly base then extension; an all base at least that; empty base; no particle. Refuted otherwise by C51_repeated_base, C51_optional_extension, C51_choice_merged, C51_choice_appended, C51_common_name, C51_empty_extension_widens."
  },
  {
   "property": "C52",
   "status": "partial",
   "theorems": [
    "Verif.Interp.C52_choice_partial",
    "Verif.Interp.C52_repeated_element_lost",
    "Verif.Interp.C52_last_bounds_win"
   ],
   "note": "Proved for choices (every alternative is still accepted). Refuted for sequences: a repeated element is lost and the last bounds win."
  },
  {
   "property": "C53",
   "status": "proved",
   "theorems": [
    "Verif.Gen.C53_union_first",
    "Verif.Gen.C53_union_rejects",
    "Verif.Gen.C53_union_round_trip",
    "Verif.Gen.C53_enum_literal",
    "Verif.Gen.C53_enum_other",
    "Verif.Gen.C53_enum_constant",
    "Verif.Gen.C53_enum_round_trip",
    "Verif.Gen.C53_enum_whitespace_ignored"
   ],
   "note": "Unions: first member that accepts, error with all failures otherwise, round trip; enumerations: first literal, constants of the base type, last catch-all, else an error. Finding: the white space facet is not applied to the literals (C53_enum_whitespace_ignored)."
  },
  {
   "property": "C54",
   "status": "partial",
   "theorems": [
    "Verif.Gen.Dflt.C54_search_ends",
    "Verif.Gen.Dflt.C54_decision_right",
    "Verif.Gen.Dflt.C54_default_succeeds_partial",
    "Verif.Gen.Dflt.C54_default_counts",
    "Verif.Gen.Dflt.C54_any_choice_panics"
   ],
   "note": "The search with its cache of running entries is proved to end on every table and to decide exactly the groups that can be constructed from nothing, in any order of queries; the default value of such a group exists and holds minOccurs values per field. With FLATTEN_ENUM_CONTENT a choice whose only alternative is an optional xs:any (or maxOccurs=0) is an exception: the generator panics (C54_any_choice_panics). Complex mixed types are not covered."
  },
  {
   "property": "C55",
   "status": "partial",
   "theorems": [
    "Verif.Opt.C55_never_panics",
    "Verif.Opt.C55_ends",
    "Verif.Opt.C55_same_alternatives_partial",
    "Verif.Opt.C55_becomes_enumeration_partial",
    "Verif.Opt.C55_accepts_no_less_partial",
    "Verif.Opt.C55_same_documents_partial",
    "Verif.Opt.C55_same_name_lost",
    "Verif.Opt.C55_facets_lost",
    "Verif.Opt.C55_self_union_never_ends",
    "Verif.Opt.C55_literal_context_lost"
   ],
   "note": "Ends, never panics, same alternatives and same documents proved when the alternatives of a union have different names and unions have no own facets. Without: C55_same_name_lost, C55_facets_lost, C55_self_union_never_ends, C55_literal_context_lost show that the property is false."
  },
  {
   "property": "C56",
   "status": "partial",
   "theorems": [
    "Verif.Opt.C56_exactly_restricted_replaced",
    "Verif.Opt.C56_same_names",
    "Verif.Opt.C56_ends",
    "Verif.Opt.C56_accepts_no_less_partial",
    "Verif.Opt.C56_restricted_list_lost",
    "Verif.Opt.C56_self_restriction_never_ends"
   ],
   "note": "Exactly the restricted types are replaced, by the end of the chain; ends; accepts no less if restrictions narrow, no type contains itself and no simple type restricts a list. False for restricted lists (C56_restricted_list_lost) and self restrictions (C56_self_restriction_never_ends)."
  },
  {
   "property": "C57",
   "status": "partial",
   "theorems": [
    "Verif.Opt.C57_accepts_no_less_partial",
    "Verif.Opt.C57_never_panics_partial",
    "Verif.Opt.C57_only_texts_added",
    "Verif.Opt.C57_synonym_panics",
    "Verif.Opt.C57_optional_content_lost",
    "Verif.Opt.C57_shared_content_accepts_text",
    "Verif.Opt.C57_text_counts_as_element",
    "Verif.Opt.C57_nested_text_lost"
   ],
   "note": "simplify_mixed_types: for every visiting order, if content is named directly, sequences must occur and consist of single elements, alternatives of choices need not occur twice, and contents are not shared, no document (in which neighbouring texts are one) is lost; the pass never panics when content is not a synonym; only texts are added, the rest of the table is unchanged. False outside: synonym content panics, optional content / nested groups lose texts, shared content accepts texts in unmixed types, a text counts as an element of a choice."
  },
  {
   "property": "C58",
   "status": "partial",
   "theorems": [
    "Verif.Gen.C58_accepts",
    "Verif.Gen.C58_restrictions_partial",
    "Verif.Gen.C58_patterns_of_steps_are_alternatives",
    "Verif.Gen.C58_incomparable_passes_ranges",
    "Verif.Gen.C58_length_bytes_ge",
    "Verif.Gen.C58_length_counts_bytes",
    "Verif.Gen.C58_list_facet_panics",
    "Verif.Gen.C58_list_lengths",
    "Verif.Gen.C58_enumeration_values",
    "Verif.Gen.C58_facet_drops_enumeration",
    "Verif.Gen.C58_inline_base_keeps_values",
    "Verif.Gen.C58_inline_union_enumeration_panics",
    "Verif.Gen.C58_own_output_rejected"
   ],
   "note": "Proved for every chain in which at most one step has patterns and repeated facets are at least as strict. False otherwise: patterns of several steps are alternatives, NaN passes every range, lengths of strings count bytes, lists with a pattern make the generator panic, facets on enumerations drop the values, own output with fraction digits may be rejected (all proved as counterexamples)."
  },
  {
   "property": "C59",
   "status": "partial",
   "theorems": [
    "Verif.Interp.C59_empty_alternative_lost",
    "Verif.Interp.C59_content_exact_partial",
    "Verif.Interp.C59_type_exact_partial"
   ],
   "note": "Exact for every nesting of groups, group references and wildcards in which element names of a group are distinct and no nested group is empty; refuted without (C59_empty_alternative_lost, C52_*). Not covered: mixed content, simple content, substitution groups."
  },
  {
   "property": "C60",
   "status": "partial",
   "theorems": [
    "Verif.Interp.C60_restriction_partial",
    "Verif.Interp.C60_optional_reordered",
    "Verif.Interp.C60_alternative_kept",
    "Verif.Interp.C60_nested_group_doubled",
    "Verif.Interp.C60_type_kept"
   ],
   "note": "Exact if the restriction starts with the required members of the base in their order and with their types; refuted otherwise by C60_optional_reordered, C60_alternative_kept, C60_nested_group_doubled, C60_type_kept."
  },
  {
   "property": "C61",
   "status": "partial",
   "theorems": [
    "Verif.Ns.C61_only_wanted",
    "Verif.Ns.C61_first_exact",
    "Verif.Ns.C61_acyclic_exact",
    "Verif.Ns.C61_prefixes_declared_partial",
    "Verif.Ns.C61_first_prefixes_declared_partial",
    "Verif.Ns.C61_foreign_element_undeclared",
    "Verif.Ns.C61_cycle_incomplete"
   ],
   "note": "Nothing superfluous for any order; exact for the first type and for types without cycles; prefixes are declared under the condition that names of elements are covered by the types below. False in general: C61_foreign_element_undeclared, C61_cycle_incomplete."
  },
  {
   "property": "C62",
   "status": "partial",
   "theorems": [
    "Verif.Gen.Tab.C62_collected_exact",
    "Verif.Gen.Tab.C62_names_declared_partial",
    "Verif.Gen.Tab.C62_dynamic_foreign_simple_undeclared",
    "Verif.Gen.Tab.C62_dynamic_default_undeclared",
    "Verif.Gen.Tab.C62_nested_names_declared_partial"
   ],
   "note": "What is collected is exactly what the types of the value use; every prefix resolves if elements are in the namespace of the type around them or of their own type. False for elements of simple type of another namespace, and the default namespace is not declared (two negations)."
  },
  {
   "property": "C63",
   "status": "partial",
   "theorems": [
    "Verif.Attrs.C63_attributes_exact",
    "Verif.Attrs.C63_types_processed",
    "Verif.Attrs.C63_cyclic_group_overflow",
    "Verif.Attrs.C63_attribute_uses_partial",
    "Verif.Attrs.Examples.C63_restricted_type_ignored",
    "Verif.Attrs.Examples.C63_fixed_ignored",
    "Verif.Attrs.Examples.C63_reference_unqualified",
    "Verif.Attrs.Examples.C63_global_default_lost",
    "Verif.Attrs.Examples.C63_dropped_default_kept",
    "Verif.Attrs.Examples.C63_redeclared_twice",
    "Verif.Attrs.Examples.C63_forms_merged",
    "Verif.Attrs.Examples.C63_extension_prohibits",
    "Verif.Attrs.Examples.C63_group_of_other_namespace",
    "Verif.Attrs.Examples.C63_group_of_other_form",
    "Verif.Attrs.Examples.C63_restriction_keeps_wildcard",
    "Verif.Attrs.Examples.C63_wildcards_kept_partial"
   ],
   "note": "Every type with finitely nested groups is processed; what the list of attributes contains is characterised exactly; it is the attribute uses of XML Schema when names, types and defaults of redeclared attributes agree, references are qualified and the attributes of a group have the same names in the schema of the type. False otherwise: redeclared types, fixed values, defaults of global attributes, references in schemas with unqualified attributes, attributes redeclared from another namespace, prohibited in extensions, wildcards of restricted types, attribute groups of other namespaces or forms (eleven negations)."
  },
  {
   "property": "C64",
   "status": "partial",
   "theorems": [
    "Verif.Subst.C64_pass_ends",
    "Verif.Subst.C64_group_members_partial",
    "Verif.Subst.C64_derived_types_partial",
    "Verif.Subst.C64_other_types",
    "Verif.Subst.C64_element_processed",
    "Verif.Subst.C64_type_processed",
    "Verif.Subst.C64_schema_members_partial",
    "Verif.Subst.C64_direct_members_partial",
    "Verif.Subst.C64_abstract_member_read",
    "Verif.Subst.C64_block_ignored",
    "Verif.Subst.C64_abstract_type_accepted",
    "Verif.Subst.C64_direct_member_lost"
   ],
   "note": "For every run: heads read exactly themselves (unless abstract) and all elements in their substitution group, each with its declared type; dynamic types have exactly the derived types; elements and types are processed without an error once what they depend on is processed; the final pass ends. Equal to XML Schema's rule if no member is abstract and the head does not block. False otherwise: abstract members and types are accepted, block is ignored, a member with two related heads is not recorded as direct. Types that are neither abstract nor marked as dynamic do not accept derived types at all."
  },
  {
   "property": "C65",
   "status": "partial",
   "theorems": [
    "Verif.Generate.C65_implements_partial",
    "Verif.Generate.C65_requires_partial",
    "Verif.Generate.C65_all_implement_partial",
    "Verif.Generate.C65_named_implement_partial",
    "Verif.Generate.C65_only_held",
    "Verif.Generate.C65_required_trait",
    "Verif.Generate.C65_all_required_partial",
    "Verif.Generate.C65_required_implemented_partial",
    "Verif.Generate.C65_impl_missing",
    "Verif.Generate.C65_built_in_missing"
   ],
   "note": "Every series of calls: a dynamic type requested by a call (generate_all_types, generate_named_types, or generate_type before the types it holds) has its trait implemented by every type with code it holds; nothing else implements it; implemented traits exist; required traits are those of direct parents. False if the code of a held type is created before the dynamic type is discovered (generate_type of a type that uses both), and for held built-in types, which have no code."
  },
  {
   "property": "C66",
   "status": "partial",
   "theorems": [
    "Verif.Gen.C66_selected_iff",
    "Verif.Gen.C66_selected_reads",
    "Verif.Gen.C66_not_selected",
    "Verif.Gen.C66_by_tag_partial",
    "Verif.Gen.C66_by_xsi_type_partial",
    "Verif.Gen.C66_default_partial",
    "Verif.Gen.C66_other_name_unread",
    "Verif.Gen.C66_round_trip_partial",
    "Verif.Gen.C66_attributes_kept_partial",
    "Verif.Gen.DispatchEx.C66_element_name_lost",
    "Verif.Gen.DispatchEx.C66_concrete_name_ignored",
    "Verif.Gen.DispatchEx.C66_plain_type_attribute",
    "Verif.Gen.DispatchEx.C66_same_name_no_xsi_type",
    "Verif.Gen.DispatchEx.C66_same_type_wrong_tag",
    "Verif.Gen.DispatchEx.C66_xsi_type_stored",
    "Verif.Gen.DispatchEx.C66_xsi_type_as_attribute"
   ],
   "note": "Exactly characterised which derived type reads an element; by tag, by xsi:type and by default under distinct local names; what is chosen reads the element; any value written is read as a member of the same Rust type, if the prescribed name is that of the dynamic type. False if the element has another name than the type, if a value of the type itself has another element name, for an unprefixed attribute type, for derived types whose tag equals the prescribed name, for members with the same type, and xsi:type is stored with wildcard attributes or read as an attribute type without a namespace."
  },
  {
   "property": "C67",
   "status": "partial",
   "theorems": [
    "Verif.ElName.C67_from_declaration",
    "Verif.ElName.C67_read_iff",
    "Verif.ElName.C67_names_partial",
    "Verif.ElName.C67_reference_unqualified",
    "Verif.ElName.C67_unqualified_in_default",
    "Verif.ElName.C67_group_of_other_namespace",
    "Verif.ElName.C67_group_of_other_form",
    "Verif.ElName.C67_local_and_global_merged",
    "Verif.ElName.C67_lenient"
   ],
   "note": "Elements correspond exactly to declarations; which tags are read is characterised; every declaration is read and written under its name if all documents are alike, references occur only where local elements are qualified, and declarations with the same local name in the same namespace agree. False in the other cases: references in schemas with unqualified elements and groups of other schemas get wrong names, unqualified elements are written below a default namespace, local and global elements of the same name are merged; and tags with other names are read."
  },
  {
   "property": "C68",
   "status": "partial",
   "theorems": [
    "Verif.Opt.C68_maps_unnoticed_partial",
    "Verif.Opt.C68_exec_optimizer",
    "Verif.Opt.C68_stale_bases",
    "Verif.Opt.C68_stale_typedefs"
   ],
   "note": "C68_exec_optimizer is the full statement for exec_optimizer with every set of flags. For arbitrary histories of direct calls C68_maps_unnoticed_partial needs at most one use of the bases and no replacement of xs:anyType after the typedefs were used; C68_stale_bases and C68_stale_typedefs show that both are needed."
  },
  {
   "property": "C69",
   "status": "partial",
   "theorems": [
    "Verif.Opt.C69_accepts_no_less_partial",
    "Verif.Opt.C69_default_loses_empty_text",
    "Verif.Opt.C69_default_loses_lists",
    "Verif.Opt.C69_same_documents_partial",
    "Verif.Opt.C69_empty_enum_accepts_more"
   ],
   "note": "C69_accepts_no_less_partial: for all flags but seven, and every well-formed table; the result has no circular and no dangling synonym. C69_same_documents_partial: without the flags that use base types instead of restrictions, and for plain unions and enumerations, exactly the same documents are accepted. Missing: replace_xs_any_type, merge dynamic types, convert dynamic to choice, flatten complex types, merge enum unions, merge choice cardinalities, simplify mixed types (each has its own property); without the stated conditions the claim is false: C69_default_loses_empty_text, C69_default_loses_lists, C69_empty_enum_accepts_more."
  },
  {
   "property": "C70",
   "status": "partial",
   "theorems": [
    "Verif.Rt.BuiltIn.C70_user_type_wins",
    "Verif.Rt.BuiltIn.C70_fixed_types",
    "Verif.Rt.BuiltIn.C70_unbounded_types",
    "Verif.Rt.BuiltIn.C70_signed_exact",
    "Verif.Rt.BuiltIn.C70_unsigned_partial",
    "Verif.Rt.BuiltIn.C70_unbounded_partial",
    "Verif.Rt.BuiltIn.C70_round_trip",
    "Verif.Rt.BuiltIn.C70_boolean_complete",
    "Verif.Rt.BuiltIn.C70_float_complete",
    "Verif.Rt.BuiltIn.C70_negative_zero_rejected",
    "Verif.Rt.BuiltIn.C70_integer_too_large",
    "Verif.Rt.BuiltIn.C70_zero_is_positive",
    "Verif.Rt.BuiltIn.C70_positive_is_negative",
    "Verif.Rt.BuiltIn.C70_attribute_space_rejected",
    "Verif.Rt.BuiltIn.C70_string_space_lost",
    "Verif.Rt.BuiltIn.C70_float_more"
   ],
   "note": "Exact for xs:long, int, short, byte in elements (C70_signed_exact); unsigned types exact up to -0; xs:integer exact within 32 bits, the other unbounded types within the pointer width; every integer read is the one denoted; round trip; booleans and floats complete. False beyond: seven negations. FromStr/Display of Rust are modelled from documentation, values of floats and big integers are not modelled."
  },
  {
   "property": "C71",
   "status": "partial",
   "theorems": [
    "Verif.Gen.Tab.C71_described_document_read_partial",
    "Verif.Generate.C71_valid_document_read_partial",
    "Verif.Generate.C71_option_can_be_missing",
    "Verif.Generate.C71_optional_alternative_rejected",
    "Verif.Generate.C71_optimized_document_read_partial"
   ],
   "note": "Proved from the type information on (C71_valid_document_read_partial): every document that is valid for a complex type of it is read by the generated deserializer, for every way to write it down and every finite nesting of sequences and choices in one another; and, composed with C69, every document that was valid before the optimizer (C71_optimized_document_read_partial). False for required choices with an optional alternative (C71_optional_alternative_rejected: three cases in which an element without content is valid and rejected); the theorems assume there are none (Filled). C71_option_can_be_missing: a field is an Option only if it can be missing. Missing: kinds of types that the tables of generated types do not have (mixed content, dynamic types, nillable elements, wildcards, nested xs:all, nested sequences without a required member), and documents whose elements have an xsi:type."
  },
  {
   "property": "C72",
   "status": "partial",
   "theorems": [
    "Verif.Generate.C72_schema_document_read_partial",
    "Verif.Interp.C72_table_exact_partial",
    "Verif.Interp.C72_second_component_ignored",
    "Verif.Interp.C72_table_well_formed_partial"
   ],
   "note": "Exact for schemas of elements, complex types with at most one particle (any nesting), extensions of complex content (of empty content and of a sequence that occurs once, along chains of derivations), restrictions of groups of elements that start with the elements the base requires (of types without base and of other restrictions) and simple-content extensions; composed with the optimizer, the generator and the deserializer. C72_table_well_formed_partial: the table that is made has no dangling and no circular definition if the simple types have none, so the composed theorems ask nothing of the interpreted table. Missing: mixed content, other extensions (C51 shows why), other restrictions (C60 shows why), nillable/abstract/substitutable elements; simple types and attributes are taken as resolved; the restrictions of C69 and C71."
  },
  {
   "property": "C73",
   "status": "proved",
   "theorems": [
    "Verif.Rt.C73_slice_reader_agrees",
    "Verif.Rt.C73_error_reader_agrees",
    "Verif.Rt.C73_async_read_equals_sync",
    "Verif.Rt.C73_async_read_returns",
    "Verif.Rt.C73_async_write_equals_sync"
   ],
   "note": "For every deserializer, serializer and schedule. Assumed of the readers and writers of quick_xml and tokio: the asynchronous variant delivers and takes the same events (SameReads, SameWrites); shown for SliceReader and kept by ErrorReader, whose asynchronous variant adds the path of elements twice. The translation of async fn to state machines by the compiler is trusted."
  },
  {
   "property": "C74",
   "status": "proved",
   "theorems": [
    "Verif.Rt.C74_written_is_prefix",
    "Verif.Rt.C74_sync_written_is_prefix"
   ],
   "note": "For every serializer that ends or fails, every schedule and every point. Assumed of the writer: it appends the text of an event, and a part of it while it is being written or if it fails (Appends)."
  },
  {
   "property": "C75",
   "status": "proved",
   "theorems": [
    "Verif.Rt.C75_wrapper_only_asks",
    "Verif.Rt.C75_scope_at_last_event",
    "Verif.Rt.C75_element_scope",
    "Verif.Rt.C75_attribute_scope",
    "Verif.Rt.C75_reads_like_inner",
    "Verif.Rt.C75_group_gets_next_scope"
   ],
   "note": "For every deserializer that uses the helper only for namespaces, every position in every well-nested document. C75_group_gets_next_scope shows that the statement is about elements: a group that is no element of its own is recorded with the scope of the event that ends it."
  },
  {
   "property": "C76",
   "status": "proved",
   "theorems": [
    "Verif.Parser.C76_first_answer",
    "Verif.Parser.C76_order_kept",
    "Verif.Parser.C76_added_last",
    "Verif.Parser.C76_schema_name",
    "Verif.Parser.C76_file_resolver",
    "Verif.Parser.ResolverEx.C76_missing_file_hides_fallback"
   ],
   "note": "For every list of resolvers with state and every history of requests. Note: a missing file is an error of the file resolver, so fallbacks behind it are not asked (C76_missing_file_hides_fallback)."
  },
  {
   "property": "C77",
   "status": "partial",
   "theorems": [
    "Verif.Generate.C77_schema_document_described_partial",
    "Verif.Generate.C77_schema_document_written_partial",
    "Verif.Generate.C77_described_document_valid_partial",
    "Verif.Generate.C77_written_document_valid_partial",
    "Verif.Generate.C77_choice_without_alternatives_read"
   ],
   "note": "Every document that the generated table describes, and every document that the serializers write, is valid for the type information (C77_described/written_document_valid_partial) and, through the optimizer and the interpreter, for the schema (C77_schema_document_described/written_partial). Missing: mixed and dynamic types, nillable elements, wildcards, nested xs:all, which the tables do not have. Finding: a required choice without alternatives is read from an empty element (C77_choice_without_alternatives_read)."
  },
  {
   "property": "C78",
   "status": "partial",
   "theorems": [
    "Verif.Config.C78_steps_partial",
    "Verif.Config.C78_types_first_partial",
    "Verif.Config.C78_quick_xml_complete",
    "Verif.Config.C78_content_helpers_twice",
    "Verif.Config.C78_enum_constants_replace_types",
    "Verif.Config.C78_types_lost"
   ],
   "note": "C78_steps_partial and C78_types_first_partial leave out EnumConstantsRenderStep used directly (it says it renders the types) and RenderStep::ContentHelpers added twice (not recognised); the property is false for both, see the findings. C78_quick_xml_complete holds without restriction."
  },
  {
   "property": "C79",
   "status": "partial",
   "theorems": [
    "Verif.Gen.Helpers.C79_first_item",
    "Verif.Gen.Helpers.C79_none",
    "Verif.Gen.Helpers.C79_change",
    "Verif.Gen.Helpers.C79_methods",
    "Verif.Gen.Helpers.C79_names_distinct_partial",
    "Verif.Gen.Helpers.C79_mut_clash"
   ],
   "note": "C79_first_item, C79_none, C79_change and C79_methods hold without restriction. That the names differ (C79_names_distinct_partial) is false for a field that ends with _mut (C79_mut_clash), and is not shown for fields that differ in a final underscore only."
  },
  {
   "property": "C80",
   "status": "partial",
   "theorems": [
    "Verif.Generate.Serde.C80_names_distinct_partial",
    "Verif.Generate.Serde.C80_no_default_required",
    "Verif.Generate.Serde.C80_required_no_default_partial",
    "Verif.Generate.Serde.C80_same_local_name",
    "Verif.Generate.Serde.C80_attribute_and_element",
    "Verif.Generate.Serde.C80_mixed_content_name",
    "Verif.Generate.Serde.C80_required_list_has_default",
    "Verif.Generate.Serde.C80_empty_choice_rejected",
    "Verif.Generate.Serde.C80_empty_list_rejected"
   ],
   "note": "Not for mixed types with support for mixed types; findings: same local names in two namespaces (quick-xml, serde-xml-rs 0.7), attribute and element with the same name (0.7), name of mixed content, required lists and empty choices and lists."
  },
  {
   "property": "C81",
   "status": "partial",
   "theorems": [
    "Verif.Naming.C81_default_same_iff",
    "Verif.Naming.C81_explicit_same_iff",
    "Verif.Naming.C81_explicit_type_element",
    "Verif.Naming.C81_default_names_distinct_partial",
    "Verif.Naming.C81_namespace_modules",
    "Verif.Naming.C81_schema_modules",
    "Verif.Naming.C81_one_module",
    "Verif.Naming.C81_display_name_resolves",
    "Verif.Naming.C81_type_and_postfixed_type_clash",
    "Verif.Naming.C81_two_namespaces_clash",
    "Verif.Naming.C81_anonymous_lists_clash",
    "Verif.Naming.C81_names_not_distinct"
   ],
   "note": "False in general: C81_names_not_distinct and the three clashes before it. C81_default_same_iff and C81_explicit_same_iff say exactly which two entries of one kind clash, C81_explicit_type_element which type and element; C81_default_names_distinct_partial proves the property for tables whose formatted names differ and do not end like the postfixes do, without display names and anonymous lists; C81_namespace_modules, C81_schema_modules, C81_one_module and C81_display_name_resolves say what modules and display names separate."
  },
  {
   "property": "C82",
   "status": "partial",
   "theorems": [
    "Verif.Ns.C82_constants_defined",
    "Verif.Ns.C82_constants_stand_for_partial",
    "Verif.Ns.C82_trait_agrees",
    "Verif.Ns.C82_root_declarations",
    "Verif.Ns.C82_prefixes_differing_in_case",
    "Verif.Ns.C82_prefix_like_unnamed",
    "Verif.Ns.C82_module_name_as_prefix",
    "Verif.Ns.C82_trait_not_ascii"
   ],
   "note": "C82_constants_defined holds always. C82_constants_stand_for_partial and C82_root_declarations need names that stay different in upper case and do not look like UNNAMED_n; the findings show that both can fail. C82_trait_agrees is for printable ASCII namespaces without a module name; C82_module_name_as_prefix and C82_trait_not_ascii show the other cases."
  },
  {
   "property": "C83",
   "status": "proved",
   "theorems": [
    "Verif.Meta.Print.C83_printing_ends",
    "Verif.Meta.Print.C83_all_is_each",
    "Verif.Meta.Print.C83_shows_what_is_inside",
    "Verif.Meta.Print.C83_loops_and_gaps",
    "Verif.Meta.Print.C83_members_shown"
   ],
   "note": "For every table; the text of the single values and errors of the formatter are left out. C83_members_shown says which facts about a type are among its lines."
  },
  {
   "property": "C84",
   "status": "partial",
   "theorems": [
    "Verif.NodeCache.C84_redefined_partial",
    "Verif.NodeCache.C84_order_irrelevant",
    "Verif.NodeCache.C84_terminates",
    "Verif.NodeCache.C84_recursive_copy_leaks",
    "Verif.NodeCache.C84_anonymous_leaks",
    "Verif.NodeCache.C84_later_include_leaks",
    "Verif.NodeCache.C84_hidden_leaks",
    "Verif.NodeCache.C84_other_namespace_leaks",
    "Verif.NodeCache.C84_indirect_dangles",
    "Verif.NodeCache.C84_override_refers_to_old",
    "Verif.NodeCache.C84_not_all_redirected",
    "Verif.NodeCache.C84_ready",
    "Verif.NodeCache.C84_redefine_partial",
    "Verif.NodeCache.C84_every_redefinition",
    "Verif.NodeCache.C84_later_components_partial"
   ],
   "note": "Proved for every state reached by a run of the documents and every order of the hash sets, if no component of another namespace has to be replaced, for what can be seen by name from the document: complete redirection, copies, nothing else changes, termination, order irrelevant; and later components of the document refer to the new ones. Findings: references through anonymous components, of copied recursive components to themselves, of documents included later, of components hidden by the same name in an imported namespace and of other namespaces keep to the old component; recursive overrides refer to the overridden type; redefining an included component dangles."
  },
  {
   "property": "C85",
   "status": "partial",
   "theorems": [
    "Verif.NodeCache.C85_anonymous_kept_partial",
    "Verif.NodeCache.C85_group_names",
    "Verif.NodeCache.C85_groups_lose",
    "Verif.NodeCache.C85_types_lose",
    "Verif.NodeCache.C85_not_all_kept"
   ],
   "note": "If different anonymous components of a document get different generated names then each keeps its declaration through the whole run, also in copies. Findings: two groups with local elements of the same name, or names that coincide when put together, lose a declaration."
  },
  {
   "property": "C86",
   "status": "partial",
   "theorems": [
    "Verif.Rt.AnySimple.C86_written",
    "Verif.Rt.AnySimple.C86_names_agree",
    "Verif.Rt.AnySimple.C86_integer_names",
    "Verif.Rt.AnySimple.C86_type_read",
    "Verif.Rt.AnySimple.C86_words",
    "Verif.Rt.AnySimple.C86_round_trip_partial",
    "Verif.Rt.AnySimple.C86_unknown_round_trip",
    "Verif.Rt.AnySimple.C86_untyped_round_trip",
    "Verif.Rt.AnySimple.C86_signed_exact",
    "Verif.Rt.AnySimple.C86_unsigned_partial",
    "Verif.Rt.AnySimple.C86_boolean_words",
    "Verif.Rt.AnySimple.C86_boolean_digit_rejected",
    "Verif.Rt.AnySimple.C86_namespace_ignored",
    "Verif.Rt.AnySimple.C86_not_all_types_survive",
    "Verif.Rt.AnySimple.C86_blank_hides_type",
    "Verif.Rt.AnySimple.C86_sign_unchecked",
    "Verif.Rt.AnySimple.C86_number_fits",
    "Verif.Rt.AnySimple.C86_blanks_lost",
    "Verif.Rt.AnySimple.C86_odd_hex_panics",
    "Verif.Rt.AnySimple.C86_infinity_not_valid",
    "Verif.Rt.AnySimple.C86_items_lost"
   ],
   "note": "Round trip proved for all 44 types and unknown types; false in general: the namespace of xsi:type is ignored, booleans 1/0 are rejected, signs of unbounded integers are not checked, blanks at the ends of strings are lost, odd hexadecimal text panics. Floating point and big numbers are parameters."
  },
  {
   "property": "C87",
   "status": "partial",
   "theorems": [
    "Verif.Gen.C87_open_struct_skips_content",
    "Verif.Gen.C87_open_group_swallows_sibling",
    "Verif.Gen.C87_open_sequence_skips_first",
    "Verif.Gen.C87_open_sequence_skips_before_required",
    "Verif.Gen.C87_open_sequence_moves_on",
    "Verif.Gen.C87_open_sequence_loses_rest",
    "Verif.Gen.C87_open_all_skips",
    "Verif.Gen.C87_open_sequence_loses_element",
    "Verif.Gen.C87_open_sequence_loses_middle",
    "Verif.Gen.C87_open_choice_skips"
   ],
   "note": "Proved for choices (C87_open_choice_skips) and xs:all (C87_open_all_skips) at every position between two children, for types whose only content is xs:any, and for sequences before the first child and while the next child is required. What happens elsewhere in a sequence is characterised (C87_open_sequence_moves_on, C87_open_sequence_loses_rest): the optional fields up to the next required one are given up, so the full claim is false: declared elements after a foreign one are lost without an error (C87_open_sequence_loses_element, C87_open_sequence_loses_middle); a nested group without fields that allows any content swallows the declared element after it (C87_open_group_swallows_sibling). Not covered: children that are groups."
  },
  {
   "property": "C88",
   "status": "partial",
   "theorems": [
    "Verif.Raw.C88_shown_exact_iff",
    "Verif.Raw.C88_no_control",
    "Verif.Raw.C88_injective_partial",
    "Verif.Raw.C88_ambiguous",
    "Verif.Raw.C88_non_ascii_garbled",
    "Verif.Raw.C88_non_ascii_never_shown"
   ],
   "note": "Exactness holds exactly for printable ASCII (C88_shown_exact_iff), so not for other text (C88_non_ascii_never_shown). No message contains an ASCII control character. Different byte strings differ only if they contain no backslash (C88_injective_partial); C88_ambiguous is the counterexample."
  },
  {
   "property": "C89",
   "status": "partial",
   "theorems": [
    "Verif.Code.C89_element_type_partial",
    "Verif.Code.C89_mixed_nillable_wrong",
    "Verif.Code.C89_runtime_types",
    "Verif.Code.C89_custom_type",
    "Verif.Code.C89_crate_path_broken",
    "Verif.Code.C89_name_captured"
   ],
   "note": "C89_element_type_partial leaves out elements that are both mixed and nillable: there the generated type is always wrong (C89_mixed_nillable_wrong). It also needs type names other than those of the imported runtime types (C89_name_captured) and runtime types given with a leading ::. C89_custom_type is for includes with a leading ::; C89_crate_path_broken shows crate:: includes with absolute paths. Boxes and containers around the type are not modelled."
  },
  {
   "property": "C90",
   "status": "proved",
   "theorems": [
    "Verif.Shared.C90_sharing_invisible",
    "Verif.Shared.C90_hash_respects_eq",
    "Verif.Shared.C90_hash_tells_apart"
   ],
   "note": "Arc and HashMap are those of the standard library: a cell with the number of its owners, and a map that is iterated in any order. Weak references and threads are not modelled."
  },
  {
   "property": "C91",
   "status": "partial",
   "theorems": [
    "Verif.Code.C91_patch_exact",
    "Verif.Code.C91_paths_renamed",
    "Verif.Code.C91_imported_types_renamed",
    "Verif.Code.C91_absolute_types_not_renamed",
    "Verif.Code.C91_string_of_std"
   ],
   "note": "C91_patch_exact holds for all paths of plain identifiers. The paths written by the render steps and imported types of fields use the configured names (C91_paths_renamed, C91_imported_types_renamed; the crates must not be called like each other). False for the types of fields with absolute paths (C91_absolute_types_not_renamed) and for String with alloc (C91_string_of_std)."
  },
  {
   "property": "C92",
   "status": "partial",
   "theorems": [
    "Verif.Generate.Defaults.C92_default_as_read_partial",
    "Verif.Generate.Defaults.C92_invalid_default_reported",
    "Verif.Generate.Defaults.C92_empty_list",
    "Verif.Generate.Defaults.C92_list_default_rejected",
    "Verif.Generate.Defaults.C92_list_alias_wrong",
    "Verif.Generate.Defaults.C92_new_type_wrong",
    "Verif.Generate.Defaults.C92_white_space_kept",
    "Verif.Generate.Defaults.C92_union_other_member",
    "Verif.Generate.Defaults.C92_boolean_other_member",
    "Verif.Generate.Defaults.C92_enumeration_other_variant",
    "Verif.Generate.Defaults.C92_infinite_panics"
   ],
   "note": "Proved for types without lists, new types for references, white space facets and (in unions and enumerations) facets or typed variants before the last one; the rest is refuted by eight findings: defaults of lists are rejected, with TypedefMode::NewType or Typedef the code does not compile, white space is kept, another member or variant than the one that is read, INF and NaN panic."
  },
  {
   "property": "C93",
   "status": "partial",
   "theorems": [
    "Verif.Generate.EnumConst.C93_pattern_exact",
    "Verif.Generate.EnumConst.C93_constant_exact_partial",
    "Verif.Generate.EnumConst.C93_not_ascii_panics",
    "Verif.Generate.EnumConst.C93_text_and_integers_partial",
    "Verif.Generate.EnumConst.C93_no_constant",
    "Verif.Generate.EnumConst.C93_numbers_by_value",
    "Verif.Generate.EnumConst.C93_restricted_integer_wrong",
    "Verif.Generate.EnumConst.C93_infinite_constant_panics",
    "Verif.Generate.EnumConst.C93_integers_by_text"
   ],
   "note": "Patterns are exact for all texts; constants for ASCII values of texts and integers, and for finite numbers. Findings: values outside of ASCII and INF/NaN make the generator panic, enumerations of restricted integer types do not compile, integers are compared as texts. Custom base types (QName) are not modelled."
  },
  {
   "property": "C94",
   "status": "partial",
   "theorems": [
    "Verif.Generate.Serde.C94_enumeration_partial",
    "Verif.Generate.Serde.C94_enumeration_round_trip",
    "Verif.Generate.Serde.C94_catch_all_not_derivable",
    "Verif.Generate.Serde.C94_catch_all_never_read",
    "Verif.Generate.Serde.C94_union_never_read"
   ],
   "note": "Proved for enumerations without typed variants. Findings: typed variants (made by merge_enum_unions, which OptimizerFlags::SERDE asks for) give code that serde refuses, or that never catches anything (serde-xml-rs 0.8); no text is ever read as a union."
  },
  {
   "property": "C95",
   "status": "partial",
   "theorems": [
    "Verif.Generate.QNames.C95_enumeration_partial",
    "Verif.Generate.QNames.C95_default_partial",
    "Verif.Generate.QNames.C95_default_namespace_lost",
    "Verif.Generate.QNames.C95_other_namespace_accepted",
    "Verif.Generate.QNames.C95_unbound_prefix_accepted"
   ],
   "note": "Proved for values with a declared prefix and texts that mean a name, with any bindings in schema and document. False for values without prefix: the default namespace of the schema is dropped, so the same name with a prefix is refused and the same text in any other namespace is accepted; an undeclared prefix is accepted if the texts are equal."
  },
  {
   "property": "C96",
   "status": "partial",
   "theorems": [
    "Verif.Naming.Cases.C96_names_partial",
    "Verif.Naming.Cases.C96_same_name_iff_partial",
    "Verif.Naming.Cases.C96_same_words_clash",
    "Verif.Naming.Cases.C96_short_words_clash",
    "Verif.Naming.Cases.C96_signs_lost",
    "Verif.Naming.Numbers.C96_numbered_partial",
    "Verif.Naming.Numbers.C96_numbered_same_iff_partial",
    "Verif.Naming.Numbers.C96_numbers_clash"
   ],
   "note": "For names of words with at least two letters, in any style, with or without a number at the end: the exact names, and two members get the same name exactly if they consist of the same words and the same number. So it is false for the same words in two styles (fooBar and foo-bar), for words of one letter (a_b and ab: one field, one constant) and for several numbers (level-1.11 and level-11.1). Numbers before words and characters outside ASCII are not covered by the positive theorems; the conversions of Inflector are trusted."
  },
  {
   "property": "C97",
   "status": "partial",
   "theorems": [
    "Verif.Generate.FieldNames.C97_members_distinct_partial",
    "Verif.Generate.FieldNames.C97_attribute_postfix_partial",
    "Verif.Generate.FieldNames.C97_attribute_and_element_clash",
    "Verif.Generate.FieldNames.C97_content_clash",
    "Verif.Generate.FieldNames.C97_text_clash",
    "Verif.Generate.FieldNames.C97_display_names"
   ],
   "note": "Proved for names of words (C96) if all attributes, elements, content and texts differ in their words; with a postfix for attributes it is enough that attributes and elements differ among themselves. False with the default naming for an attribute and an element of the same name (legal in a schema), for an attribute called content, and for an element called textBefore in a mixed type. Display names decide alone (C97_display_names)."
  },
  {
   "property": "C98",
   "status": "partial",
   "theorems": [
    "Verif.Generate.HelperNames.C98_items_distinct_iff_partial",
    "Verif.Generate.HelperNames.C98_helpers_distinct",
    "Verif.Generate.HelperNames.C98_content_clash",
    "Verif.Generate.HelperNames.C98_trait_clash"
   ],
   "note": "Exact condition proved for all names of types (C98_items_distinct_iff_partial) and, without any further condition, for serializers and deserializers (C98_helpers_distinct); that types never meet names of contents and traits is false: C98_content_clash, C98_trait_clash. Types of serde-xml-rs 0.8 are left out."
  },
  {
   "property": "C99",
   "status": "partial",
   "theorems": [
    "Verif.Parser.Config.C99_resolvers",
    "Verif.Parser.Config.C99_resolver_order",
    "Verif.Parser.Config.C99_loaded",
    "Verif.Parser.Config.C99_prefixes_partial",
    "Verif.Parser.Config.C99_status_ignored"
   ],
   "note": "Loading, order of the resolvers and who answers are proved for every configuration, assuming of the crate url that http and https addresses are not paths of files. That refusals of the server are reported is false: the status is not looked at (C99_status_ignored). Prefixes with the restriction of C25. Names of schemas and the debug output are left out."
  },
  {
   "property": "C100",
   "status": "partial",
   "theorems": [
    "Verif.Parser.ConfigIdents.C100_namespace",
    "Verif.Parser.ConfigIdents.C100_declared",
    "Verif.Parser.ConfigIdents.C100_undeclared",
    "Verif.Parser.ConfigIdents.C100_text",
    "Verif.Parser.ConfigIdents.C100_round_trip_partial",
    "Verif.Parser.ConfigIdents.C100_generated_names_lost",
    "Verif.Parser.ConfigIdents.C100_same_schema_name"
   ],
   "note": "Namespaces, texts and the search for the schema are exact for every table. Not every type can be named: types with generated names cannot (C100_generated_names_lost), and of schemas with the same name only the first is found, in any namespace (C100_same_schema_name). Kinds other than elements and types are left open (schema 0) if the namespace has several schemas, as C100_undeclared says."
  },
  {
   "property": "C101",
   "status": "partial",
   "theorems": [
    "Verif.Parser.Selected.C101_selected",
    "Verif.Parser.Selected.C101_succeeds_partial",
    "Verif.Parser.Selected.C101_declared_listed",
    "Verif.Parser.Selected.C101_cache_not_asked"
   ],
   "note": "The queue holds exactly the selected types that are not provided by the user, each once (C101_selected), and the selection succeeds exactly if the schemas resolve the listed identifiers to types (C101_succeeds_partial); declared elements and types can be listed by their names (C101_declared_listed). Finding: the cache of identifiers is not asked for the listed types, so that a global attribute in a namespace with several documents cannot be listed by its name alone (C101_cache_not_asked). The resolution of identifiers is C100, the types reached from the selected ones are C50."
  },
  {
   "property": "C102",
   "status": "partial",
   "theorems": [
    "Verif.Runtime.StreamBuffer.C102_events_partial",
    "Verif.Runtime.StreamBuffer.C102_buffer_keeps_everything",
    "Verif.Runtime.StreamBuffer.C102_buffer_unbounded"
   ],
   "note": "The events do not depend on what was read before (C102_events_partial). Finding: the bound on the memory is false, the buffer is never cleared and keeps all bytes read so far (C102_buffer_keeps_everything, C102_buffer_unbounded). Trusted: quick_xml's read_event_into appends to the buffer it is given and does not clear it, as its documentation says; quick_xml itself is not part of the repository. Errors of the reader and the asynchronous variant (same buffer) are not modelled here."
  },
  {
   "property": "C103",
   "status": "partial",
   "theorems": [
    "Verif.Generate.CustomDefaults.C103_no_wrong_value",
    "Verif.Generate.CustomDefaults.C103_rejected",
    "Verif.Generate.CustomDefaults.C103_value_partial",
    "Verif.Generate.CustomDefaults.C103_not_checked",
    "Verif.Generate.CustomDefaults.C103_union_panics"
   ],
   "note": "The generated function never returns a wrong value (C103_no_wrong_value), the generator rejects only texts that stand for no value (C103_rejected), and both agree if the custom types accept the text (C103_value_partial). Findings: the text is not checked when the code is generated (C103_not_checked), and in a union a custom type takes defaults that are valid for a later member only, so that the generated code panics on a valid document (C103_union_panics; for example xs:integer as BigInt and xs:string with the default auto). The other types are C92; custom types of the user are not modelled."
  },
  {
   "property": "C104",
   "status": "partial",
   "theorems": [
    "Verif.Generate.ProvidedTypes.C104_path_partial",
    "Verif.Generate.ProvidedTypes.C104_same_place",
    "Verif.Generate.ProvidedTypes.C104_panics",
    "Verif.Generate.ProvidedTypes.C104_keyword_kept"
   ],
   "note": "A type whose name is a Rust identifier is expected under it in the module of its namespace (C104_path_partial), and two types at the same place exactly if names and modules agree (C104_same_place). Findings: names with other characters make the generator panic (C104_panics), and keywords are kept (C104_keyword_kept). Trusted: Ident::new of proc_macro2 panics for texts that are not made of the characters of an identifier and accepts keywords."
  }
 ]
}
