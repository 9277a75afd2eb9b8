{
 "claims": [
  {
   "property": "C01",
   "status": "proved",
   "theorems": [
    "Wjson.C01_accepted_text_is_json",
    "Wjson.C01_accepted_iff"
   ],
   "note": ""
  },
  {
   "property": "C02",
   "status": "proved",
   "theorems": [
    "Wjson.C02_rfc_value_accepted",
    "Wjson.C02_rfc_value_accepted_delim",
    "Wjson.C02_rfc_text_accepted"
   ],
   "note": ""
  },
  {
   "property": "C03",
   "status": "proved",
   "theorems": [
    "Wjson.C03_parser_terminates",
    "Wjson.C03_despace_terminates"
   ],
   "note": ""
  },
  {
   "property": "C04",
   "status": "proved",
   "theorems": [
    "Wjson.C04_error_returns_end",
    "Wjson.C04_not_end_no_error"
   ],
   "note": ""
  },
  {
   "property": "C05",
   "status": "proved",
   "theorems": [
    "Wjson.C05_first_error_kept",
    "Wjson.C05_typed"
   ],
   "note": ""
  },
  {
   "property": "C06",
   "status": "proved",
   "theorems": [
    "Wjson.C06_position_independent_of_error_arg",
    "Wjson.C06_null_stays_null"
   ],
   "note": ""
  },
  {
   "property": "C07",
   "status": "proved",
   "theorems": [
    "Wjson.C07_iterator_in_range",
    "Wjson.C07_progress"
   ],
   "note": ""
  },
  {
   "property": "C08",
   "status": "proved",
   "theorems": [
    "Wjson.C08_accept_independent_of_past",
    "Wjson.C08_defined_when_readable",
    "Wjson.C08_verdict_independent_of_past",
    "Wjson.C08_reads_past_end_on_rejected_input"
   ],
   "note": "The claim of properties.jsonl (verdict and iterator) is proved; C08_reads_past_end_on_rejected_input shows that *end is dereferenced on rejected inputs and that the error code may depend on it."
  },
  {
   "property": "C09",
   "status": "proved",
   "theorems": [
    "Wjson.C09_error_position_in_text",
    "Wjson.C09_where_and_trace",
    "Wjson.C09_trace_no_error",
    "Wjson.C09_typed"
   ],
   "note": ""
  },
  {
   "property": "C10",
   "status": "proved",
   "theorems": [
    "Wjson.C10_number_exact",
    "Wjson.C10_number_longest"
   ],
   "note": ""
  },
  {
   "property": "C11",
   "status": "proved",
   "theorems": [
    "Wjson.C11_string_exact",
    "Wjson.C11_string_unique",
    "Wjson.C11_rfc_string_accepted"
   ],
   "note": ""
  },
  {
   "property": "C12",
   "status": "proved",
   "theorems": [
    "Wjson.C12_skips_only_space",
    "Wjson.C12_skips_blank",
    "Wjson.C12_unclosed_comment",
    "Wjson.C12_slash_star_slash_is_complete",
    "Wjson.C12_closing_slash_opens"
   ],
   "note": "C12_slash_star_slash_is_complete records the deviation for comment bodies starting with a slash."
  },
  {
   "property": "C13",
   "status": "proved",
   "theorems": [
    "Wjson.C13_despace_only_deletes_gaps",
    "Wjson.C13_despace_subsequence",
    "Wjson.C13_despace_output_bounded"
   ],
   "note": ""
  },
  {
   "property": "C14",
   "status": "proved",
   "theorems": [
    "Wjson.C14_despace_keeps_documents"
   ],
   "note": ""
  },
  {
   "property": "C15",
   "status": "proved",
   "theorems": [
    "Wjson.C15_ranges",
    "Wjson.C15_integer_round_trip",
    "Wjson.C15_most_negative_is_undefined"
   ],
   "note": ""
  },
  {
   "property": "C16",
   "status": "proved",
   "theorems": [
    "Wjson.C16_canonical_decimal"
   ],
   "note": ""
  },
  {
   "property": "C17",
   "status": "proved",
   "theorems": [
    "Wjson.C17_literal_that_fits",
    "Wjson.C17_literal_modular",
    "Wjson.C17_literal_overflow_undefined",
    "Wjson.C17_leading_zero"
   ],
   "note": ""
  },
  {
   "property": "C18",
   "status": "proved",
   "theorems": [
    "Wjson.C18_bool_round_trip",
    "Wjson.C18_bool_exact",
    "Wjson.C18_bool_error"
   ],
   "note": ""
  },
  {
   "property": "C19",
   "status": "proved",
   "theorems": [
    "Wjson.C19_string_round_trip",
    "Wjson.C19_expand_identity",
    "Wjson.C19_string_round_trip_exact"
   ],
   "note": ""
  },
  {
   "property": "C20",
   "status": "proved",
   "theorems": [
    "Wjson.C20_output_clean",
    "Wjson.C20_no_control_bytes",
    "Wjson.C20_output_accepted",
    "Wjson.C20_output_rfc"
   ],
   "note": ""
  },
  {
   "property": "C21",
   "status": "proved",
   "theorems": [
    "Wjson.C21_string_decoding",
    "Wjson.C21_unicode_escape"
   ],
   "note": ""
  },
  {
   "property": "C22",
   "status": "proved",
   "theorems": [
    "Wjson.C22_char_array_longer",
    "Wjson.C22_char_array_bounds",
    "Wjson.C22_char_array_fits",
    "Wjson.C22_char_array_too_long",
    "Wjson.C22_control_escape_cut_silently",
    "Wjson.C22_char_array_round_trip"
   ],
   "note": ""
  },
  {
   "property": "C23",
   "status": "proved",
   "theorems": [
    "Wjson.C23_bad_hex_reported"
   ],
   "note": ""
  },
  {
   "property": "C24",
   "status": "proved",
   "theorems": [
    "Wjson.C24_accepts",
    "Wjson.C24_as_parse_number",
    "Wjson.C24_accepted_is_number",
    "Wjson.C24_only_prefix_matters",
    "Wjson.C24_not_a_number",
    "Wjson.C24_round_trip",
    "Wjson.C24_long_literal_truncated",
    "Wjson.C24_long_text_truncated"
   ],
   "note": ""
  },
  {
   "property": "C25",
   "status": "proved",
   "theorems": [
    "Wjson.C25_sequence_round_trip",
    "Wjson.C25_every_sequence",
    "Wjson.C25_set_round_trip",
    "Wjson.C25_multiset_round_trip",
    "Wjson.C25_sequence_any_layout",
    "Wjson.C25_set_any_order",
    "Wjson.C25_multiset_any_order"
   ],
   "note": ""
  },
  {
   "property": "C26",
   "status": "proved",
   "theorems": [
    "Wjson.C26_size_kept",
    "Wjson.C26_fewer_elements",
    "Wjson.C26_empty_text",
    "Wjson.C26_too_many",
    "Wjson.C26_round_trip",
    "Wjson.C26_rows"
   ],
   "note": ""
  },
  {
   "property": "C27",
   "status": "proved",
   "theorems": [
    "Wjson.C27_sequence_dict_round_trip",
    "Wjson.C27_map_round_trip",
    "Wjson.C27_sequence_dict_any_layout",
    "Wjson.C27_map_first_occurrence"
   ],
   "note": ""
  },
  {
   "property": "C28",
   "status": "proved",
   "theorems": [
    "Wjson.C28_round_trip",
    "Wjson.C28_whole_round_trip"
   ],
   "note": ""
  },
  {
   "property": "C29",
   "status": "proved",
   "theorems": [
    "Wjson.C29_effects",
    "Wjson.C29_members",
    "Wjson.C29_order_irrelevant"
   ],
   "note": ""
  },
  {
   "property": "C30",
   "status": "proved",
   "theorems": [
    "Wjson.C30_strict_unknown_any",
    "Wjson.C30_strict_unknown",
    "Wjson.C30_strict_known"
   ],
   "note": ""
  },
  {
   "property": "C31",
   "status": "proved",
   "theorems": [
    "Wjson.C31_exact",
    "Wjson.C31_last_wins",
    "Wjson.C31_after_all_members",
    "Wjson.C31_not_last_wins"
   ],
   "note": ""
  },
  {
   "property": "C32",
   "status": "proved",
   "theorems": [
    "Wjson.C32_null_integer",
    "Wjson.C32_null_bool",
    "Wjson.C32_null_string",
    "Wjson.C32_null_container",
    "Wjson.C32_null_object",
    "Wjson.C32_empty_object"
   ],
   "note": ""
  },
  {
   "property": "C33",
   "status": "proved",
   "theorems": [
    "Wjson.C33_round_trip",
    "Wjson.C33_whole_round_trip",
    "Wjson.C33_elements",
    "Wjson.C33_fewer_elements",
    "Wjson.C33_no_elements",
    "Wjson.C33_null",
    "Wjson.C33_more_elements",
    "Wjson.C33_alternative",
    "Wjson.C33_trailing_comma"
   ],
   "note": ""
  },
  {
   "property": "C34",
   "status": "proved",
   "theorems": [
    "Wjson.C34_reads",
    "Wjson.C34_round_trip",
    "Wjson.C34_unlisted_value",
    "Wjson.C34_unlisted_strict",
    "Wjson.C34_unlisted_nonstrict",
    "Wjson.C34_high_byte_skipped"
   ],
   "note": ""
  },
  {
   "property": "C35",
   "status": "proved",
   "theorems": [
    "Wjson.C35_array_reads",
    "Wjson.C35_separator_reads",
    "Wjson.C35_array_round_trip",
    "Wjson.C35_separator_round_trip",
    "Wjson.C35_array_strict",
    "Wjson.C35_separator_strict",
    "Wjson.C35_missing_comma",
    "Wjson.C35_unlisted_bits_lost"
   ],
   "note": ""
  },
  {
   "property": "C36",
   "status": "proved",
   "theorems": [
    "Wjson.C36_round_trip",
    "Wjson.C36_text",
    "Wjson.C36_text_negative",
    "Wjson.C36_reads",
    "Wjson.C36_number",
    "Wjson.C36_negative_fraction",
    "Wjson.C36_ms_int_undefined",
    "Wjson.C36_ms_int_wraps",
    "Wjson.C36_ms_unsigned",
    "Wjson.C36_zero_fraction"
   ],
   "note": ""
  },
  {
   "property": "C37",
   "status": "proved",
   "theorems": [
    "Wjson.C37_in_bounds",
    "Wjson.C37_only_overflow",
    "Wjson.C37_overrun"
   ],
   "note": ""
  },
  {
   "property": "C38",
   "status": "proved",
   "theorems": [
    "Wjson.C38_round_trip",
    "Wjson.C38_text",
    "Wjson.C38_unit",
    "Wjson.C38_plain",
    "Wjson.C38_zero",
    "Wjson.C38_reads",
    "Wjson.C38_quoted_number"
   ],
   "note": ""
  },
  {
   "property": "C39",
   "status": "proved",
   "theorems": [
    "Wjson.C39_in_bounds",
    "Wjson.C39_only_full_buffer",
    "Wjson.C39_overrun",
    "Wjson.C39_overrun_without_error_object"
   ],
   "note": ""
  },
  {
   "property": "C40",
   "status": "proved",
   "theorems": [
    "Wjson.C40_round_trip",
    "Wjson.C40_trailing_ignored",
    "Wjson.C40_inner_error",
    "Wjson.C40_unquoted",
    "Wjson.C40_unquoted_string_fails",
    "Wjson.C40_raw_quoted",
    "Wjson.C40_raw_quoted_raw_pointer"
   ],
   "note": ""
  },
  {
   "property": "C41",
   "status": "proved",
   "theorems": [
    "Wjson.C41_captures",
    "Wjson.C41_one_value",
    "Wjson.C41_writes",
    "Wjson.C41_round_trip"
   ],
   "note": ""
  },
  {
   "property": "C42",
   "status": "proved",
   "theorems": [
    "Wjson.C42_round_trip",
    "Wjson.C42_null",
    "Wjson.C42_any_n",
    "Wjson.C42_end_of_text",
    "Wjson.C42_null_raw_pointer",
    "Wjson.C42_null_raw_pointer_short"
   ],
   "note": ""
  },
  {
   "property": "C43",
   "status": "proved",
   "theorems": [
    "Wjson.C43_writes",
    "Wjson.C43_round_trip",
    "Wjson.C43_order_matters",
    "Wjson.C43_round_trip_among_others",
    "Wjson.C43_round_trip_in_array"
   ],
   "note": ""
  },
  {
   "property": "C44",
   "status": "proved",
   "theorems": [
    "Wjson.C44_index",
    "Wjson.C44_first",
    "Wjson.C44_none"
   ],
   "note": ""
  },
  {
   "property": "C45",
   "status": "proved",
   "theorems": [
    "Wjson.C45_append",
    "Wjson.C45_append_new",
    "Wjson.C45_append_again",
    "Wjson.C45_append_without_list",
    "Wjson.C45_create_first_listed",
    "Wjson.C45_create_none_listed",
    "Wjson.C45_create_no_request",
    "Wjson.C45_create_priority",
    "Wjson.C45_by_value"
   ],
   "note": ""
  },
  {
   "property": "C46",
   "status": "proved",
   "theorems": [
    "Wjson.C46_pointer_like_inserter",
    "Wjson.C46_inserter_appends",
    "Wjson.C46_undefined_alike",
    "Wjson.C46_not_for_others"
   ],
   "note": "Holds for every description without time_interval, size_value, pointer and raw_quoted; C46_not_for_others is the proved counterexample for those."
  },
  {
   "property": "C47",
   "status": "proved",
   "theorems": [
    "Wjson.C47_error_texts",
    "Wjson.C47_message"
   ],
   "note": ""
  },
  {
   "property": "C48",
   "status": "proved",
   "theorems": [
    "Wjson.C48_terminates_inside",
    "Wjson.C48_defined",
    "Wjson.C48_error_object",
    "Wjson.C48_null_error"
   ],
   "note": "C48_terminates_inside covers every description; C48_defined gives conditions under which no undefined behaviour is reached."
  },
  {
   "property": "C49",
   "status": "proved",
   "theorems": [
    "Wjson.C49_written_json",
    "Wjson.C49_accepted",
    "Wjson.C49_accepted_in_buffer",
    "Wjson.C49_keys",
    "Wjson.C49_conditions_needed"
   ],
   "note": ""
  },
  {
   "property": "C50",
   "status": "proved",
   "theorems": [
    "Wjson.C50_round_trip",
    "Wjson.C50_round_trip_in_text",
    "Wjson.C50_round_trip_in_buffer",
    "Wjson.C50_injective"
   ],
   "note": ""
  },
  {
   "property": "C51",
   "status": "proved",
   "theorems": [
    "Wjson.C51_literal",
    "Wjson.C51_no_apostrophe"
   ],
   "note": ""
  },
  {
   "property": "C52",
   "status": "proved",
   "theorems": [
    "Wjson.C52_member_value",
    "Wjson.C52_writes_as_member",
    "Wjson.C52_nothing_else",
    "Wjson.C52_member_value_errors"
   ],
   "note": ""
  },
  {
   "property": "C53",
   "status": "proved",
   "theorems": [
    "Wjson.C53_exact",
    "Wjson.C53_whole",
    "Wjson.C53_rejected",
    "Wjson.C53_one_value",
    "Wjson.C53_one_prefix",
    "Wjson.C53_without_error",
    "Wjson.C53_pointer_truncated",
    "Wjson.C53_pointer_any_n",
    "Wjson.C53_time_truncated",
    "Wjson.C53_time_quote_skipped",
    "Wjson.C53_chars_cut",
    "Wjson.C53_quoted_tail",
    "Wjson.C53_flags_second_space",
    "Wjson.C53_flags_space_separates"
   ],
   "note": "Denotations in Spec/Denotes.lean cover every template except member_if, which has its own theorems (C43). Pointers and time intervals at the outermost level accept truncated texts (C53_pointer_truncated, C53_time_truncated). Flags: nonempty list of distinct names that are plain words."
  },
  {
   "property": "C54",
   "status": "proved",
   "theorems": [
    "Wjson.C54_dialect",
    "Wjson.C54_parse",
    "Wjson.C54_refused",
    "Wjson.C54_conditions_needed"
   ],
   "note": "C54_conditions_needed shows a text for each condition that is read without error and refused by parse."
  },
  {
   "property": "C55",
   "status": "proved",
   "theorems": [
    "Wjson.C55_truncated",
    "Wjson.C55_truncated_end",
    "Wjson.C55_numbers",
    "Wjson.C55_typed"
   ],
   "note": "Numbers are excepted: a shorter number is a number (C55_numbers). Typed readers: plain texts and string keys as in C54."
  },
  {
   "property": "C56",
   "status": "proved",
   "theorems": [
    "Wjson.C56_documents",
    "Wjson.C56_one_division",
    "Wjson.C56_fault",
    "Wjson.C56_lines"
   ],
   "note": "The loops are user code around the API (Model/Client.lean). C56_fault: unless the parser reads past the end (C08)."
  },
  {
   "property": "C57",
   "status": "proved",
   "theorems": [
    "Wjson.C57_any_text",
    "Wjson.C57_success",
    "Wjson.C57_quoted_keeps",
    "Wjson.C57_fixed_keeps",
    "Wjson.C57_object_keeps"
   ],
   "note": "C57_quoted_keeps, C57_fixed_keeps and C57_object_keeps are the descriptions for which the earlier content does matter."
  },
  {
   "property": "C58",
   "status": "proved",
   "theorems": [
    "Wjson.C58_int",
    "Wjson.C58_bool",
    "Wjson.C58_enum",
    "Wjson.C58_size",
    "Wjson.C58_raw",
    "Wjson.C58_raw_quoted",
    "Wjson.C58_element",
    "Wjson.C58_end",
    "Wjson.C58_bracket",
    "Wjson.C58_fixed_bracket",
    "Wjson.C58_entry",
    "Wjson.C58_dict_bracket",
    "Wjson.C58_member",
    "Wjson.C58_unknown",
    "Wjson.C58_object_bracket",
    "Wjson.C58_missing_comma",
    "Wjson.C58_fixed_element",
    "Wjson.C58_fixed_end",
    "Wjson.C58_fixed_missing_comma",
    "Wjson.C58_dict_missing_comma",
    "Wjson.C58_dict_end",
    "Wjson.C58_member_missing_comma",
    "Wjson.C58_object_array_text",
    "Wjson.C58_positional_bracket",
    "Wjson.C58_positional_element",
    "Wjson.C58_positional_missing_comma",
    "Wjson.C58_time",
    "Wjson.C58_time_text",
    "Wjson.C58_flags_unknown",
    "Wjson.C58_flags_text"
   ],
   "note": ""
  },
  {
   "property": "C59",
   "status": "proved",
   "theorems": [
    "Wjson.C59_minified",
    "Wjson.C59_agree",
    "Wjson.C59_converse_fails",
    "Wjson.C59_conditions_needed"
   ],
   "note": "The converse is refuted by C59_converse_fails; C59_conditions_needed shows why raw values, \\x escapes and sloppy null pointers are left out."
  },
  {
   "property": "C60",
   "status": "proved",
   "theorems": [
    "Wjson.C60_compact",
    "Wjson.C60_despace_identity",
    "Wjson.C60_condition_needed"
   ],
   "note": ""
  },
  {
   "property": "C61",
   "status": "proved",
   "theorems": [
    "Wjson.C61_position",
    "Wjson.C61_colon",
    "Wjson.C61_number",
    "Wjson.C61_literal",
    "Wjson.C61_incomplete",
    "Wjson.C61_end",
    "Wjson.C61_literal_position",
    "Wjson.C61_number_position",
    "Wjson.C61_colon_position"
   ],
   "note": "Deviations for numbers, colons and literals are proved as separate theorems."
  },
  {
   "property": "C62",
   "status": "proved",
   "theorems": [
    "Wjson.C62_uniform",
    "Wjson.C62_success",
    "Wjson.C62_quoted_without_error_object",
    "Wjson.C62_failed_stops"
   ],
   "note": ""
  },
  {
   "property": "C63",
   "status": "proved",
   "theorems": [
    "Wjson.C63_round_trip",
    "Wjson.C63_round_trip_in_text",
    "Wjson.C63_reads_all",
    "Wjson.C63_reads_first",
    "Wjson.C63_reads_first_member",
    "Wjson.C63_ordered_containers"
   ],
   "note": ""
  },
  {
   "property": "C64",
   "status": "proved",
   "theorems": [
    "Wjson.C64_read",
    "Wjson.C64_write",
    "Wjson.C64_standard_read",
    "Wjson.C64_everywhere",
    "Wjson.C64_written_everywhere",
    "Wjson.C64_parse",
    "Wjson.C64_multi",
    "Wjson.C64_templates_are_descriptions",
    "Wjson.C64_undefined_differs",
    "Wjson.C64_enum_sign"
   ],
   "note": ""
  },
  {
   "property": "C65",
   "status": "proved",
   "theorems": [
    "Wjson.C65_error_returns_end",
    "Wjson.C65_position_tells",
    "Wjson.C65_null_argument",
    "Wjson.C65_takes_null",
    "Wjson.C65_deviations"
   ],
   "note": ""
  },
  {
   "property": "C66",
   "status": "proved",
   "theorems": [
    "Wjson.C66_default_good",
    "Wjson.C66_stays_good",
    "Wjson.C66_reload",
    "Wjson.C66_saved_texts_differ",
    "Wjson.C66_deviations",
    "Wjson.C66_alternatives"
   ],
   "note": ""
  },
  {
   "property": "C67",
   "status": "proved",
   "theorems": [
    "Wjson.C67_bound",
    "Wjson.C67_buffer",
    "Wjson.C67_too_short",
    "Wjson.C67_tight_str",
    "Wjson.C67_tight_int",
    "Wjson.C67_null_deviates",
    "Wjson.C67_interval",
    "Wjson.C67_size",
    "Wjson.C67_units_tight"
   ],
   "note": ""
  },
  {
   "property": "C68",
   "status": "proved",
   "theorems": [
    "Wjson.C68_carried",
    "Wjson.C68_whole",
    "Wjson.C68_object",
    "Wjson.C68_old_data",
    "Wjson.C68_new_data",
    "Wjson.C68_reordered",
    "Wjson.C68_strict_rejects",
    "Wjson.C68_conf",
    "Wjson.C68_lost",
    "Wjson.C68_alternative"
   ],
   "note": ""
  },
  {
   "property": "C69",
   "status": "proved",
   "theorems": [
    "Wjson.C69_same_result",
    "Wjson.C69_exact",
    "Wjson.C69_nesting",
    "Wjson.C69_any_text",
    "Wjson.C69_no_stack_is_enough",
    "Wjson.C69_unclosed"
   ],
   "note": "the unbounded nesting is kept as C69_no_stack_is_enough and C69_unclosed"
  },
  {
   "property": "C70",
   "status": "proved",
   "theorems": [
    "Wjson.C70_in_place",
    "Wjson.C70_document",
    "Wjson.C70_not_ahead"
   ],
   "note": "C70_not_ahead shows that the condition on the start of the output is needed"
  },
  {
   "property": "C71",
   "status": "proved",
   "theorems": [
    "Wjson.C71_stays_utf8",
    "Wjson.C71_written",
    "Wjson.C71_key",
    "Wjson.C71_despace",
    "Wjson.C71_deviations"
   ],
   "note": "the texts that leave other bytes in strings (escaped UTF-16 pairs, \\x, torn letters, char arrays) are kept as C71_deviations"
  },
  {
   "property": "C72",
   "status": "proved",
   "theorems": [
    "Wjson.C72_same_result",
    "Wjson.C72_linear",
    "Wjson.C72_linear_member",
    "Wjson.C72_linear_leaves",
    "Wjson.C72_linear_despace"
   ],
   "note": "counted copy of the parser in Model/Work.lean; C72_same_result shows that counting changes no result"
  },
  {
   "property": "C73",
   "status": "proved",
   "theorems": [
    "Wjson.C73_codes",
    "Wjson.C73_value",
    "Wjson.C73_member",
    "Wjson.C73_number",
    "Wjson.C73_string",
    "Wjson.C73_expected"
   ],
   "note": ""
  },
  {
   "property": "C74",
   "status": "proved",
   "theorems": [
    "Wjson.C74_where",
    "Wjson.C74_int",
    "Wjson.C74_minus",
    "Wjson.C74_float",
    "Wjson.C74_bool",
    "Wjson.C74_string",
    "Wjson.C74_chars",
    "Wjson.C74_enum",
    "Wjson.C74_flags",
    "Wjson.C74_quoted",
    "Wjson.C74_raw_quoted",
    "Wjson.C74_array",
    "Wjson.C74_fixed",
    "Wjson.C74_positional",
    "Wjson.C74_dict",
    "Wjson.C74_object",
    "Wjson.C74_object_array_text",
    "Wjson.C74_time",
    "Wjson.C74_size",
    "Wjson.C74_pointer",
    "Wjson.C74_enum_unknown",
    "Wjson.C74_flags_unknown",
    "Wjson.C74_element",
    "Wjson.C74_fixed_element",
    "Wjson.C74_comma",
    "Wjson.C74_fixed_comma",
    "Wjson.C74_too_many",
    "Wjson.C74_entry",
    "Wjson.C74_entry_key",
    "Wjson.C74_entry_colon",
    "Wjson.C74_entry_comma",
    "Wjson.C74_member",
    "Wjson.C74_member_unknown",
    "Wjson.C74_member_comma",
    "Wjson.C74_member_colon",
    "Wjson.C74_member_name",
    "Wjson.C74_positional_element",
    "Wjson.C74_positional_comma",
    "Wjson.C74_size_position"
   ],
   "note": ""
  },
  {
   "property": "C75",
   "status": "proved",
   "theorems": [
    "Wjson.C75_int",
    "Wjson.C75_int_quiet",
    "Wjson.C75_bool",
    "Wjson.C75_bool_quiet",
    "Wjson.C75_float",
    "Wjson.C75_float_quiet",
    "Wjson.C75_string",
    "Wjson.C75_string_quiet",
    "Wjson.C75_chars",
    "Wjson.C75_chars_quiet",
    "Wjson.C75_enum",
    "Wjson.C75_enum_quiet",
    "Wjson.C75_one",
    "Wjson.C75_hex_goes_on"
   ],
   "note": ""
  },
  {
   "property": "C76",
   "status": "proved",
   "theorems": [
    "Wjson.C76_error",
    "Wjson.C76_silent",
    "Wjson.C76_ends",
    "Wjson.C76_one",
    "Wjson.C76_nameless_comma",
    "Wjson.C76_pointer_n",
    "Wjson.C76_surplus_position",
    "Wjson.C76_brace_for_comma",
    "Wjson.C76_unit_place",
    "Wjson.C76_time_cut",
    "Wjson.C76_flags_no_comma",
    "Wjson.C76_last_alternative"
   ],
   "note": ""
  },
  {
   "property": "C77",
   "status": "proved",
   "theorems": [
    "Wjson.C77_same_result",
    "Wjson.C77_exact",
    "Wjson.C77_any_text",
    "Wjson.C77_in_order",
    "Wjson.C77_repeated",
    "Wjson.C77_no_stack_is_enough",
    "Wjson.C77_strict_no_stack_is_enough"
   ],
   "note": ""
  },
  {
   "property": "C78",
   "status": "proved",
   "theorems": [
    "Wjson.C78_same_result",
    "Wjson.C78_linear",
    "Wjson.C78_linear_scalars",
    "Wjson.C78_linear_multi",
    "Wjson.C78_same_result_member_if",
    "Wjson.C78_member_if_quadratic",
    "Wjson.C78_member_if_not_linear"
   ],
   "note": ""
  },
  {
   "property": "C79",
   "status": "proved",
   "theorems": [
    "Wjson.C79_memory",
    "Wjson.C79_memory_fresh",
    "Wjson.C79_string",
    "Wjson.C79_container",
    "Wjson.C79_strings",
    "Wjson.C79_dictionary",
    "Wjson.C79_containers",
    "Wjson.C79_repeated"
   ],
   "note": ""
  },
  {
   "property": "C80",
   "status": "proved",
   "theorems": [
    "Wjson.C80_any_text",
    "Wjson.C80_container",
    "Wjson.C80_success",
    "Wjson.C80_written",
    "Wjson.C80_float_leaks",
    "Wjson.C80_quoted_leaks",
    "Wjson.C80_object_leaks",
    "Wjson.C80_fixed_leaks",
    "Wjson.C80_depends"
   ],
   "note": ""
  },
  {
   "property": "C81",
   "status": "proved",
   "theorems": [
    "Wjson.C81_every",
    "Wjson.C81_same_result",
    "Wjson.C81_enough",
    "Wjson.C81_constant",
    "Wjson.C81_object_no_stack_is_enough",
    "Wjson.C81_raw_no_stack_is_enough"
   ],
   "note": ""
  },
  {
   "property": "C82",
   "status": "proved",
   "theorems": [
    "Wjson.C82_reads_nearest",
    "Wjson.C82_reads_overflow",
    "Wjson.C82_written_close",
    "Wjson.C82_written_fixed_close",
    "Wjson.C82_kept",
    "Wjson.C82_kept_fixed",
    "Wjson.C82_same_text_again",
    "Wjson.C82_same_text_again_fixed",
    "Wjson.C82_local",
    "Wjson.C82_inf_nan",
    "Wjson.C82_double_lost",
    "Wjson.C82_float_lost",
    "Wjson.C82_largest",
    "Wjson.C82_long_cut",
    "Wjson.C82_fixed_cut",
    "Wjson.C82_fixed_small"
   ],
   "note": ""
  },
  {
   "property": "C83",
   "status": "proved",
   "theorems": [
    "Wjson.C83_settles",
    "Wjson.C83_equation",
    "Wjson.C83_unique",
    "Wjson.C83_terminates_inside",
    "Wjson.C83_defined",
    "Wjson.C83_written",
    "Wjson.C83_written_unique",
    "Wjson.C83_round_trip",
    "Wjson.C83_written_json",
    "Wjson.C83_tree",
    "Wjson.C83_unlimited_depth",
    "Wjson.C83_brackets_needed"
   ],
   "note": ""
  },
  {
   "property": "C84",
   "status": "proved",
   "theorems": [
    "Wjson.C84_history",
    "Wjson.C84_defined",
    "Wjson.C84_again",
    "Wjson.C84_earlier",
    "Wjson.C84_order_matters",
    "Wjson.C84_adding_setter"
   ],
   "note": ""
  },
  {
   "property": "C85",
   "status": "proved",
   "theorems": [
    "Wjson.C85_same_as_trees",
    "Wjson.C85_others_untouched",
    "Wjson.C85_others_unchanged",
    "Wjson.C85_one_owner",
    "Wjson.C85_written",
    "Wjson.C85_sharing_unseen",
    "Wjson.C85_sharing_lost",
    "Wjson.C85_list",
    "Wjson.C85_cycle_never_written"
   ],
   "note": ""
  },
  {
   "property": "C86",
   "status": "proved",
   "theorems": [
    "Wjson.C86_same_result",
    "Wjson.C86_polynomial",
    "Wjson.C86_recursive_same_result",
    "Wjson.C86_recursive_linear",
    "Wjson.C86_tree",
    "Wjson.C86_twice_same_result",
    "Wjson.C86_exponential",
    "Wjson.C86_exponential_not_polynomial"
   ],
   "note": ""
  },
  {
   "property": "C87",
   "status": "proved",
   "theorems": [
    "Wjson.C87_sound",
    "Wjson.C87_whole",
    "Wjson.C87_rejected",
    "Wjson.C87_dialect",
    "Wjson.C87_parse",
    "Wjson.C87_not_complete",
    "Wjson.C87_passed"
   ],
   "note": ""
  },
  {
   "property": "C88",
   "status": "proved",
   "theorems": [
    "Wjson.C88_course",
    "Wjson.C88_part",
    "Wjson.C88_many",
    "Wjson.C88_choice",
    "Wjson.C88_recursive",
    "Wjson.C88_kept"
   ],
   "note": ""
  },
  {
   "property": "C89",
   "status": "proved",
   "theorems": [
    "Wjson.C89_whole",
    "Wjson.C89_torn",
    "Wjson.C89_defined",
    "Wjson.C89_history",
    "Wjson.C89_nothing_lost",
    "Wjson.C89_numbers",
    "Wjson.C89_pointers",
    "Wjson.C89_undefined",
    "Wjson.C89_lines_whole",
    "Wjson.C89_lines_torn",
    "Wjson.C89_lines_history"
   ],
   "note": ""
  },
  {
   "property": "C90",
   "status": "proved",
   "theorems": [
    "Wjson.C90_pieces",
    "Wjson.C90_all",
    "Wjson.C90_end_to_end",
    "Wjson.C90_defined",
    "Wjson.C90_exact",
    "Wjson.C90_one_piece",
    "Wjson.C90_numbers",
    "Wjson.C90_code",
    "Wjson.C90_stuck"
   ],
   "note": ""
  },
  {
   "property": "C91",
   "status": "proved",
   "theorems": [
    "Wjson.C91_one_line",
    "Wjson.C91_sent",
    "Wjson.C91_pieces",
    "Wjson.C91_all",
    "Wjson.C91_end_to_end",
    "Wjson.C91_one_piece",
    "Wjson.C91_raw"
   ],
   "note": ""
  }
 ]
}