# Axioms of the theorems in MANIFEST.json

Output of `#print axioms`, shortened: P = `propext`, C = `Classical.choice`, Q = `Quot.sound`.

* C01: `C01_accepted_text_is_json` (PCQ), `C01_accepted_iff` (PCQ)
* C02: `C02_rfc_value_accepted` (PCQ), `C02_rfc_value_accepted_delim` (PCQ), `C02_rfc_text_accepted` (PCQ)
* C03: `C03_parser_terminates` (PCQ), `C03_despace_terminates` (PCQ)
* C04: `C04_error_returns_end` (PCQ), `C04_not_end_no_error` (PCQ)
* C05: `C05_first_error_kept` (PCQ), `C05_typed` (PCQ)
* C06: `C06_position_independent_of_error_arg` (PCQ), `C06_null_stays_null` (PCQ)
* C07: `C07_iterator_in_range` (PCQ), `C07_progress` (PCQ)
* C08: `C08_accept_independent_of_past` (PCQ), `C08_defined_when_readable` (PCQ), `C08_verdict_independent_of_past` (PCQ), `C08_reads_past_end_on_rejected_input` (PQ)
* C09: `C09_error_position_in_text` (PCQ), `C09_where_and_trace` (PCQ), `C09_trace_no_error` (P), `C09_typed` (PCQ)
* C10: `C10_number_exact` (PQ), `C10_number_longest` (PQ)
* C11: `C11_string_exact` (PCQ), `C11_string_unique` (PCQ), `C11_rfc_string_accepted` (PCQ)
* C12: `C12_skips_only_space` (PQ), `C12_skips_blank` (PQ), `C12_unclosed_comment` (PQ), `C12_slash_star_slash_is_complete` (none), `C12_closing_slash_opens` (none)
* C13: `C13_despace_only_deletes_gaps` (PCQ), `C13_despace_subsequence` (PCQ), `C13_despace_output_bounded` (PCQ)
* C14: `C14_despace_keeps_documents` (PCQ)
* C15: `C15_ranges` (none), `C15_integer_round_trip` (PCQ), `C15_most_negative_is_undefined` (PCQ)
* C16: `C16_canonical_decimal` (PCQ)
* C17: `C17_literal_that_fits` (PCQ), `C17_literal_modular` (PCQ), `C17_literal_overflow_undefined` (PQ), `C17_leading_zero` (P)
* C18: `C18_bool_round_trip` (PCQ), `C18_bool_exact` (PCQ), `C18_bool_error` (PCQ)
* C19: `C19_string_round_trip` (PCQ), `C19_expand_identity` (P), `C19_string_round_trip_exact` (PCQ)
* C20: `C20_output_clean` (PCQ), `C20_no_control_bytes` (PQ), `C20_output_accepted` (PCQ), `C20_output_rfc` (PCQ)
* C21: `C21_string_decoding` (PCQ), `C21_unicode_escape` (PCQ)
* C22: `C22_char_array_longer` (PCQ), `C22_char_array_bounds` (PCQ), `C22_char_array_fits` (PCQ), `C22_char_array_too_long` (PCQ), `C22_control_escape_cut_silently` (PQ), `C22_char_array_round_trip` (PCQ)
* C23: `C23_bad_hex_reported` (PCQ)
* C24: `C24_accepts` (PQ), `C24_as_parse_number` (P), `C24_accepted_is_number` (PQ), `C24_only_prefix_matters` (PQ), `C24_not_a_number` (P), `C24_round_trip` (PQ), `C24_long_literal_truncated` (none), `C24_long_text_truncated` (none)
* C25: `C25_sequence_round_trip` (PCQ), `C25_every_sequence` (PCQ), `C25_set_round_trip` (PCQ), `C25_multiset_round_trip` (PCQ), `C25_sequence_any_layout` (PCQ), `C25_set_any_order` (PCQ), `C25_multiset_any_order` (PCQ)
* C26: `C26_size_kept` (PQ), `C26_fewer_elements` (PQ), `C26_empty_text` (PQ), `C26_too_many` (PCQ), `C26_round_trip` (PQ), `C26_rows` (PCQ)
* C27: `C27_sequence_dict_round_trip` (PCQ), `C27_map_round_trip` (PCQ), `C27_sequence_dict_any_layout` (PCQ), `C27_map_first_occurrence` (PCQ)
* C28: `C28_round_trip` (PCQ), `C28_whole_round_trip` (PCQ)
* C29: `C29_effects` (PCQ), `C29_members` (PCQ), `C29_order_irrelevant` (PCQ)
* C30: `C30_strict_unknown_any` (PCQ), `C30_strict_unknown` (PCQ), `C30_strict_known` (PCQ)
* C31: `C31_exact` (PCQ), `C31_last_wins` (PCQ), `C31_after_all_members` (PCQ), `C31_not_last_wins` (PQ)
* C32: `C32_null_integer` (PCQ), `C32_null_bool` (PCQ), `C32_null_string` (PCQ), `C32_null_container` (PCQ), `C32_null_object` (PCQ), `C32_empty_object` (PCQ)
* C33: `C33_round_trip` (PQ), `C33_whole_round_trip` (PQ), `C33_elements` (PQ), `C33_fewer_elements` (PQ), `C33_no_elements` (PQ), `C33_null` (PQ), `C33_more_elements` (PQ), `C33_alternative` (PQ), `C33_trailing_comma` (PQ)
* C34: `C34_reads` (PQ), `C34_round_trip` (PQ), `C34_unlisted_value` (PQ), `C34_unlisted_strict` (PQ), `C34_unlisted_nonstrict` (PQ), `C34_high_byte_skipped` (P)
* C35: `C35_array_reads` (PCQ), `C35_separator_reads` (PCQ), `C35_array_round_trip` (PCQ), `C35_separator_round_trip` (PCQ), `C35_array_strict` (PCQ), `C35_separator_strict` (PCQ), `C35_missing_comma` (PQ), `C35_unlisted_bits_lost` (PQ)
* C36: `C36_round_trip` (PCQ), `C36_text` (PCQ), `C36_text_negative` (PCQ), `C36_reads` (PCQ), `C36_number` (PCQ), `C36_negative_fraction` (P), `C36_ms_int_undefined` (P), `C36_ms_int_wraps` (P), `C36_ms_unsigned` (P), `C36_zero_fraction` (PQ)
* C37: `C37_in_bounds` (PCQ), `C37_only_overflow` (PCQ), `C37_overrun` (PCQ)
* C38: `C38_round_trip` (PCQ), `C38_text` (PCQ), `C38_unit` (PCQ), `C38_plain` (PCQ), `C38_zero` (PCQ), `C38_reads` (PCQ), `C38_quoted_number` (PCQ)
* C39: `C39_in_bounds` (PCQ), `C39_only_full_buffer` (PCQ), `C39_overrun` (PCQ), `C39_overrun_without_error_object` (PQ)
* C40: `C40_round_trip` (PCQ), `C40_trailing_ignored` (PCQ), `C40_inner_error` (PCQ), `C40_unquoted` (PQ), `C40_unquoted_string_fails` (PQ), `C40_raw_quoted` (PCQ), `C40_raw_quoted_raw_pointer` (PQ)
* C41: `C41_captures` (PCQ), `C41_one_value` (PCQ), `C41_writes` (PQ), `C41_round_trip` (PCQ)
* C42: `C42_round_trip` (P), `C42_null` (P), `C42_any_n` (P), `C42_end_of_text` (P), `C42_null_raw_pointer` (P), `C42_null_raw_pointer_short` (PQ)
* C43: `C43_writes` (PQ), `C43_round_trip` (PCQ), `C43_order_matters` (PQ), `C43_round_trip_among_others` (PCQ), `C43_round_trip_in_array` (PQ)
* C44: `C44_index` (PCQ), `C44_first` (PQ), `C44_none` (PQ)
* C45: `C45_append` (PCQ), `C45_append_new` (PCQ), `C45_append_again` (PCQ), `C45_append_without_list` (P), `C45_create_first_listed` (PQ), `C45_create_none_listed` (PQ), `C45_create_no_request` (P), `C45_create_priority` (P), `C45_by_value` (P)
* C46: `C46_pointer_like_inserter` (PCQ), `C46_inserter_appends` (PQ), `C46_undefined_alike` (PQ), `C46_not_for_others` (PQ)
* C47: `C47_error_texts` (P), `C47_message` (P)
* C48: `C48_terminates_inside` (PCQ), `C48_defined` (PCQ), `C48_error_object` (PCQ), `C48_null_error` (PCQ)
* C49: `C49_written_json` (PCQ), `C49_accepted` (PCQ), `C49_accepted_in_buffer` (PCQ), `C49_keys` (PCQ), `C49_conditions_needed` (PQ)
* C50: `C50_round_trip` (PCQ), `C50_round_trip_in_text` (PCQ), `C50_round_trip_in_buffer` (PCQ), `C50_injective` (PCQ)
* C51: `C51_literal` (P), `C51_no_apostrophe` (PQ)
* C52: `C52_member_value` (P), `C52_writes_as_member` (none), `C52_nothing_else` (PQ), `C52_member_value_errors` (P)
* C53: `C53_exact` (PCQ), `C53_whole` (PCQ), `C53_rejected` (PCQ), `C53_one_value` (PCQ), `C53_one_prefix` (PCQ), `C53_without_error` (PCQ), `C53_pointer_truncated` (P), `C53_pointer_any_n` (none), `C53_time_truncated` (P), `C53_time_quote_skipped` (P), `C53_chars_cut` (none), `C53_quoted_tail` (P), `C53_flags_second_space` (PQ), `C53_flags_space_separates` (PQ)
* C54: `C54_dialect` (PCQ), `C54_parse` (PCQ), `C54_refused` (PCQ), `C54_conditions_needed` (PQ)
* C55: `C55_truncated` (PCQ), `C55_truncated_end` (PCQ), `C55_numbers` (PQ), `C55_typed` (PCQ)
* C56: `C56_documents` (PCQ), `C56_one_division` (PCQ), `C56_fault` (PCQ), `C56_lines` (P)
* C57: `C57_any_text` (PQ), `C57_success` (PQ), `C57_quoted_keeps` (PQ), `C57_fixed_keeps` (P), `C57_object_keeps` (PQ)
* C58: `C58_int` (PQ), `C58_bool` (P), `C58_enum` (PQ), `C58_size` (PQ), `C58_raw` (PCQ), `C58_raw_quoted` (PCQ), `C58_element` (PCQ), `C58_end` (PCQ), `C58_bracket` (P), `C58_fixed_bracket` (P), `C58_entry` (PCQ), `C58_dict_bracket` (P), `C58_member` (PCQ), `C58_unknown` (PCQ), `C58_object_bracket` (PQ), `C58_missing_comma` (PCQ), `C58_fixed_element` (PQ), `C58_fixed_end` (PQ), `C58_fixed_missing_comma` (PQ), `C58_dict_missing_comma` (PCQ), `C58_dict_end` (PCQ), `C58_member_missing_comma` (PCQ), `C58_object_array_text` (PQ), `C58_positional_bracket` (P), `C58_positional_element` (PCQ), `C58_positional_missing_comma` (PCQ), `C58_time` (PCQ), `C58_time_text` (P), `C58_flags_unknown` (PCQ), `C58_flags_text` (PQ)
* C59: `C59_minified` (PCQ), `C59_agree` (PCQ), `C59_converse_fails` (PQ), `C59_conditions_needed` (PQ)
* C60: `C60_compact` (PCQ), `C60_despace_identity` (PCQ), `C60_condition_needed` (PQ)
* C61: `C61_position` (PCQ), `C61_colon` (PCQ), `C61_number` (PCQ), `C61_literal` (PCQ), `C61_incomplete` (PCQ), `C61_end` (PCQ), `C61_literal_position` (PQ), `C61_number_position` (PQ), `C61_colon_position` (PQ)
* C62: `C62_uniform` (PCQ), `C62_success` (PCQ), `C62_quoted_without_error_object` (PQ), `C62_failed_stops` (PQ)
* C63: `C63_round_trip` (PCQ), `C63_round_trip_in_text` (PCQ), `C63_reads_all` (PCQ), `C63_reads_first` (PCQ), `C63_reads_first_member` (PCQ), `C63_ordered_containers` (PQ)
* C64: `C64_read` (PQ), `C64_write` (PQ), `C64_standard_read` (PQ), `C64_everywhere` (PQ), `C64_written_everywhere` (PQ), `C64_parse` (PQ), `C64_multi` (PQ), `C64_templates_are_descriptions` (PQ), `C64_undefined_differs` (PQ), `C64_enum_sign` (P)
* C65: `C65_error_returns_end` (PCQ), `C65_position_tells` (PCQ), `C65_null_argument` (PCQ), `C65_takes_null` (PQ), `C65_deviations` (PQ)
* C66: `C66_default_good` (PCQ), `C66_stays_good` (PCQ), `C66_reload` (PCQ), `C66_saved_texts_differ` (PCQ), `C66_deviations` (PQ), `C66_alternatives` (PQ)
* C67: `C67_bound` (PCQ), `C67_buffer` (PCQ), `C67_too_short` (PCQ), `C67_tight_str` (PQ), `C67_tight_int` (PCQ), `C67_null_deviates` (PQ), `C67_interval` (PCQ), `C67_size` (PCQ), `C67_units_tight` (PQ)
* C68: `C68_carried` (PCQ), `C68_whole` (PCQ), `C68_object` (PCQ), `C68_old_data` (PCQ), `C68_new_data` (PCQ), `C68_reordered` (PCQ), `C68_strict_rejects` (PCQ), `C68_conf` (PCQ), `C68_lost` (PQ), `C68_alternative` (PCQ)
* C69: `C69_same_result` (PCQ), `C69_exact` (PCQ), `C69_nesting` (PCQ), `C69_any_text` (PCQ), `C69_no_stack_is_enough` (PCQ), `C69_unclosed` (PCQ)
* C70: `C70_in_place` (PCQ), `C70_document` (PCQ), `C70_not_ahead` (PQ)
* C71: `C71_stays_utf8` (PCQ), `C71_written` (PCQ), `C71_key` (PCQ), `C71_despace` (PCQ), `C71_deviations` (PQ)
* C72: `C72_same_result` (PCQ), `C72_linear` (PCQ), `C72_linear_member` (PCQ), `C72_linear_leaves` (PQ), `C72_linear_despace` (PCQ)
* C73: `C73_codes` (PCQ), `C73_value` (PCQ), `C73_member` (PCQ), `C73_number` (PCQ), `C73_string` (PCQ), `C73_expected` (PCQ)
* C74: `C74_where` (PQ), `C74_int` (P), `C74_minus` (PQ), `C74_float` (P), `C74_bool` (P), `C74_string` (PQ), `C74_chars` (PQ), `C74_enum` (PQ), `C74_flags` (PQ), `C74_quoted` (PQ), `C74_raw_quoted` (PQ), `C74_array` (P), `C74_fixed` (P), `C74_positional` (P), `C74_dict` (P), `C74_object` (PQ), `C74_object_array_text` (PQ), `C74_time` (P), `C74_size` (PQ), `C74_pointer` (none), `C74_enum_unknown` (PQ), `C74_flags_unknown` (PCQ), `C74_element` (PCQ), `C74_fixed_element` (PQ), `C74_comma` (PCQ), `C74_fixed_comma` (PQ), `C74_too_many` (PQ), `C74_entry` (PCQ), `C74_entry_key` (PCQ), `C74_entry_colon` (PCQ), `C74_entry_comma` (PCQ), `C74_member` (PCQ), `C74_member_unknown` (PCQ), `C74_member_comma` (PCQ), `C74_member_colon` (PCQ), `C74_member_name` (PCQ), `C74_positional_element` (PCQ), `C74_positional_comma` (PCQ), `C74_size_position` (PQ)
* C75: `C75_int` (PCQ), `C75_int_quiet` (PCQ), `C75_bool` (PCQ), `C75_bool_quiet` (PCQ), `C75_float` (PCQ), `C75_float_quiet` (PCQ), `C75_string` (PCQ), `C75_string_quiet` (PCQ), `C75_chars` (PCQ), `C75_chars_quiet` (PCQ), `C75_enum` (PQ), `C75_enum_quiet` (PQ), `C75_one` (PCQ), `C75_hex_goes_on` (PQ)
* C76: `C76_error` (PCQ), `C76_silent` (PCQ), `C76_ends` (PCQ), `C76_one` (PCQ), `C76_nameless_comma` (P), `C76_pointer_n` (PCQ), `C76_surplus_position` (PQ), `C76_brace_for_comma` (PQ), `C76_unit_place` (PCQ), `C76_time_cut` (PCQ), `C76_flags_no_comma` (PCQ), `C76_last_alternative` (PQ)
* C77: `C77_same_result` (PCQ), `C77_exact` (PCQ), `C77_any_text` (PCQ), `C77_in_order` (PCQ), `C77_repeated` (PCQ), `C77_no_stack_is_enough` (PCQ), `C77_strict_no_stack_is_enough` (PCQ)
* C78: `C78_same_result` (PCQ), `C78_linear` (PCQ), `C78_linear_scalars` (PCQ), `C78_linear_multi` (PCQ), `C78_same_result_member_if` (PCQ), `C78_member_if_quadratic` (PCQ), `C78_member_if_not_linear` (PCQ)
* C79: `C79_memory` (PCQ), `C79_memory_fresh` (PCQ), `C79_string` (PQ), `C79_container` (PCQ), `C79_strings` (PCQ), `C79_dictionary` (PCQ), `C79_containers` (PCQ), `C79_repeated` (PQ)
* C80: `C80_any_text` (PQ), `C80_container` (PQ), `C80_success` (PCQ), `C80_written` (PCQ), `C80_float_leaks` (none), `C80_quoted_leaks` (PQ), `C80_object_leaks` (PQ), `C80_fixed_leaks` (P), `C80_depends` (PQ)
* C81: `C81_every` (PCQ), `C81_same_result` (PCQ), `C81_enough` (PCQ), `C81_constant` (PCQ), `C81_object_no_stack_is_enough` (PCQ), `C81_raw_no_stack_is_enough` (PCQ)
* C82: `C82_reads_nearest` (PCQ), `C82_reads_overflow` (PCQ), `C82_written_close` (PCQ), `C82_written_fixed_close` (PCQ), `C82_kept` (PCQ), `C82_kept_fixed` (PCQ), `C82_same_text_again` (PCQ), `C82_same_text_again_fixed` (PCQ), `C82_local` (PCQ), `C82_inf_nan` (P), `C82_double_lost` (P), `C82_float_lost` (none), `C82_largest` (none), `C82_long_cut` (none), `C82_fixed_cut` (none), `C82_fixed_small` (none)
* C83: `C83_settles` (PCQ), `C83_equation` (PCQ), `C83_unique` (PCQ), `C83_terminates_inside` (PCQ), `C83_defined` (PCQ), `C83_written` (PQ), `C83_written_unique` (PQ), `C83_round_trip` (PCQ), `C83_written_json` (PCQ), `C83_tree` (PCQ), `C83_unlimited_depth` (PQ), `C83_brackets_needed` (PQ)
* C84: `C84_history` (PCQ), `C84_defined` (PCQ), `C84_again` (PCQ), `C84_earlier` (PCQ), `C84_order_matters` (PQ), `C84_adding_setter` (PQ)
* C85: `C85_same_as_trees` (PCQ), `C85_others_untouched` (PCQ), `C85_others_unchanged` (PCQ), `C85_one_owner` (PCQ), `C85_written` (PCQ), `C85_sharing_unseen` (PCQ), `C85_sharing_lost` (P), `C85_list` (PCQ), `C85_cycle_never_written` (PQ)
* C86: `C86_same_result` (PCQ), `C86_polynomial` (PCQ), `C86_recursive_same_result` (PCQ), `C86_recursive_linear` (PCQ), `C86_tree` (PCQ), `C86_twice_same_result` (PQ), `C86_exponential` (PQ), `C86_exponential_not_polynomial` (PQ)
* C87: `C87_sound` (PCQ), `C87_whole` (PCQ), `C87_rejected` (PCQ), `C87_dialect` (PCQ), `C87_parse` (PCQ), `C87_not_complete` (PQ), `C87_passed` (PQ)
* C88: `C88_course` (PCQ), `C88_part` (PCQ), `C88_many` (PCQ), `C88_choice` (PCQ), `C88_recursive` (PCQ), `C88_kept` (PQ)
* C89: `C89_whole` (PCQ), `C89_torn` (PCQ), `C89_defined` (PCQ), `C89_history` (PCQ), `C89_nothing_lost` (PCQ), `C89_numbers` (P), `C89_pointers` (P), `C89_undefined` (PQ), `C89_lines_whole` (PCQ), `C89_lines_torn` (PCQ), `C89_lines_history` (PCQ)
* C90: `C90_pieces` (PCQ), `C90_all` (PCQ), `C90_end_to_end` (PCQ), `C90_defined` (PCQ), `C90_exact` (PCQ), `C90_one_piece` (PCQ), `C90_numbers` (P), `C90_code` (PQ), `C90_stuck` (PQ)
* C91: `C91_one_line` (PCQ), `C91_sent` (PCQ), `C91_pieces` (PCQ), `C91_all` (PCQ), `C91_end_to_end` (PCQ), `C91_one_piece` (PCQ), `C91_raw` (PQ)
