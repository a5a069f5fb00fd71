C03_element_diverges_on_truncated C05_adjacent_separators_wrong C06_finish_vec_never_rejects C06_bounds_not_enforced C06_array_default_panics
C07_other_name_accepted C09_optional_dynamic_rejected C10_list_minimum_not_enforced C10_reference_ignored C10_nesting_leak C11_maximum_not_enforced
C11_second_dynamic_unreachable C12_maximum_not_enforced C12_repeated_bounds_not_enforced C12_skip_panics C12_second_dynamic_unreachable
C15_shadowed_prefix C15_declared_twice C17_any_hex_panics_and_accepts_sign C17_any_hex_odd_panics C18_namespace_changed C18_references_lost
C20_not_transitive C20_hash_inconsistent C22_collapse_removes_no_break_space C22_total_digits_rejects_valid C23_end_tag_error_names_parent
C25_generated_prefix_clashes C26_resolver_change_panics C27_second_include_ignored C27_mismatch_accepted C27_import_inherits C28_unannounced_schema_missed
C31_circular_group_hangs C31_error_names_other C32_any_clash C32_renamed_clash C32_prefix_clash C32_group_then_element_panics C32_many_clashes_overflow
C33_loop_not_idempotent C34_not_reflexive C35_loop_never_ends C35_different_substitutions_merged C36_loop_never_ends C36_simple_base_kept
C37_self_union_never_ends C37_facets_lost C39_empty_text_lost C40_cyclic_group_diverges C40_repeated_alternative_lost C40_order_lost C40_empty_content_lost
C41_counts_lost C41_shared_choice_lost C41_synonym_content_panics C42_same_name_lost C42_self_derived_diverges C43_mul_zero_unbounded_not_tight
C44_missing_keywords C44_underscore_and_empty C45_collision_across_texts C46_display_loses_absolute C47_single_segment_dropped C48_mod_name_clash
C49_long_cycle_unboxed C49_alias_cycle_unboxed C51_repeated_base C51_optional_extension C51_choice_merged C51_choice_appended C51_common_name
C51_empty_extension_widens C52_repeated_element_lost C52_last_bounds_win C53_enum_whitespace_ignored C54_any_choice_panics C55_same_name_lost
C55_facets_lost C55_self_union_never_ends C55_literal_context_lost C56_restricted_list_lost C56_self_restriction_never_ends C57_synonym_panics
C57_optional_content_lost C57_shared_content_accepts_text C57_text_counts_as_element C57_nested_text_lost C58_patterns_of_steps_are_alternatives
C58_incomparable_passes_ranges C58_length_counts_bytes C58_list_facet_panics C58_facet_drops_enumeration C58_inline_base_keeps_values
C58_inline_union_enumeration_panics C58_own_output_rejected C59_empty_alternative_lost C60_optional_reordered C60_alternative_kept
C60_nested_group_doubled C60_type_kept
C14_nil_leaks_scope C14_xsi_empty_leaks_scope C14_any_simple_type_leaks_scope C19_mixed_empty_text_lost C19_mixed_root_rejected C19_unqualified_nil C19_second_nil_lost
C13_local_mode_unreadable
C61_foreign_element_undeclared C61_cycle_incomplete
C13_local_foreign_type_unreadable C13_local_attribute_unreadable C62_dynamic_foreign_simple_undeclared C62_dynamic_default_undeclared
C63_restricted_type_ignored C63_fixed_ignored C63_reference_unqualified C63_global_default_lost C63_dropped_default_kept C63_redeclared_twice C63_forms_merged C63_extension_prohibits C63_restriction_keeps_wildcard C63_group_of_other_namespace C63_group_of_other_form
C64_abstract_member_read C64_block_ignored C64_abstract_type_accepted C64_direct_member_lost
C65_impl_missing C65_built_in_missing
C66_other_name_unread C66_element_name_lost C66_concrete_name_ignored C66_plain_type_attribute C66_same_name_no_xsi_type C66_same_type_wrong_tag C66_xsi_type_stored C66_xsi_type_as_attribute
C67_reference_unqualified C67_unqualified_in_default C67_group_of_other_namespace C67_group_of_other_form C67_local_and_global_merged C67_lenient
C68_stale_bases C68_stale_typedefs
C69_default_loses_empty_text C69_default_loses_lists
C70_negative_zero_rejected C70_integer_too_large C70_zero_is_positive C70_positive_is_negative C70_attribute_space_rejected C70_string_space_lost C70_float_more
C71_optional_alternative_rejected
C75_group_gets_next_scope
C76_missing_file_hides_fallback
C77_choice_without_alternatives_read
C69_empty_enum_accepts_more
C78_content_helpers_twice C78_enum_constants_replace_types C78_types_lost
C79_mut_clash
C80_same_local_name C80_attribute_and_element C80_mixed_content_name C80_required_list_has_default C80_empty_choice_rejected C80_empty_list_rejected
C81_type_and_postfixed_type_clash C81_two_namespaces_clash C81_anonymous_lists_clash C81_names_not_distinct
C82_prefixes_differing_in_case C82_prefix_like_unnamed C82_module_name_as_prefix C82_trait_not_ascii
C84_not_all_redirected C84_recursive_copy_leaks C84_anonymous_leaks C84_later_include_leaks C84_hidden_leaks C84_other_namespace_leaks C84_override_refers_to_old C84_indirect_dangles
C85_groups_lose C85_types_lose C85_not_all_kept C85_group_names
C86_boolean_digit_rejected C86_namespace_ignored C86_not_all_types_survive C86_blank_hides_type C86_sign_unchecked C86_number_fits C86_blanks_lost C86_odd_hex_panics C86_infinity_not_valid C86_items_lost
C03_open_sequence_diverges_on_truncated C03_open_sequence_truncated_document C03_open_struct_diverges_on_truncated C87_open_group_swallows_sibling
C87_open_sequence_loses_rest C87_open_sequence_loses_element C87_open_sequence_loses_middle C03_open_all_diverges_on_truncated C03_open_choice_diverges_on_truncated
C88_ambiguous C88_non_ascii_garbled C88_non_ascii_never_shown
C89_mixed_nillable_wrong C89_crate_path_broken C89_name_captured
C91_absolute_types_not_renamed C91_string_of_std
C92_list_default_rejected C92_list_alias_wrong C92_new_type_wrong C92_white_space_kept C92_union_other_member C92_boolean_other_member C92_enumeration_other_variant C92_infinite_panics
C93_not_ascii_panics C93_restricted_integer_wrong C93_infinite_constant_panics C93_integers_by_text
C94_catch_all_not_derivable C94_catch_all_never_read C94_union_never_read
C95_default_namespace_lost C95_other_namespace_accepted C95_unbound_prefix_accepted
C96_same_words_clash C96_short_words_clash C96_signs_lost
C97_attribute_and_element_clash C97_content_clash C97_text_clash
C98_content_clash C98_trait_clash
C96_numbers_clash
C99_status_ignored
C100_generated_names_lost C100_same_schema_name
C101_cache_not_asked
C102_buffer_keeps_everything C102_buffer_unbounded
C103_not_checked C103_union_panics
C104_panics C104_keyword_kept
