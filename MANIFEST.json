{
 "claims": [
  {
   "property": "C01",
   "status": "proved",
   "theorems": [
    "Verif.C01_utf8_roundtrip"
   ],
   "note": "Model: Verif.CodePoint; spec: Spec.utf8 (arithmetic)."
  },
  {
   "property": "C02",
   "status": "proved",
   "theorems": [
    "Verif.C02_utf8_decode_sound",
    "Verif.C02_utf8_decode_iff",
    "Verif.C02_utf8_end_in_bounds",
    "Verif.C02_utf8_unique"
   ],
   "note": "Byte inputs (units < 256)."
  },
  {
   "property": "C03",
   "status": "partial",
   "theorems": [
    "Verif.C03_utf16_roundtrip_partial",
    "Verif.C03_utf16_roundtrip_refuted",
    "Verif.C03_utf16_decode_exact",
    "Verif.C03_utf16_decode_wellformed",
    "Verif.C03_utf32_roundtrip",
    "Verif.C03_ascii_roundtrip",
    "Verif.C03_decode_iff",
    "Verif.C03_decode_len"
   ],
   "note": "False for planes 2,4,...,16 in the pinned code (witness U+20000); exact behaviour proved for every scalar value."
  },
  {
   "property": "C04",
   "status": "partial",
   "theorems": [
    "Verif.C04_recovery_progress_partial",
    "Verif.C04_recovery_total_partial",
    "Verif.C04_recovery_progress_refuted"
   ],
   "note": "UTF-8 bytes F8..FF are classified as EOF, so recovery does not progress there; proved for all inputs without EOF-like units (no exception in UTF-16)."
  },
  {
   "property": "C05",
   "status": "partial",
   "theorems": [
    "Verif.C05_decode_encode_all_partial",
    "Verif.C05_decode_encode_utf8",
    "Verif.C05_decode_encode_utf32",
    "Verif.C05_decode_encode_utf16_refuted",
    "Verif.C05_encode_injective"
   ],
   "note": "All values for ASCII, UTF-8, UTF-32; false for UTF-16 in the planes where C03 fails; general theorem restricted to the values Spec.Faithful."
  },
  {
   "property": "C06",
   "status": "partial",
   "theorems": [
    "Verif.Swar.C06_lower_exact",
    "Verif.Swar.C06_upper_exact",
    "Verif.Swar.C06_digits_exact",
    "Verif.Swar.C06_digit_exact",
    "Verif.Swar.C06_character_exact",
    "Verif.Swar.C06_control_sound",
    "Verif.Swar.C06_alpha_sound",
    "Verif.Swar.C06_skip_exact",
    "Verif.Swar.C06_print_exact_partial",
    "Verif.Swar.C06_graph_exact_partial",
    "Verif.Swar.C06_print_refuted",
    "Verif.Swar.C06_print_overrun_refuted"
   ],
   "note": "Exact for 8 bit lanes; ascii::print/graph accept 0xFFFFFFFF lanes on UTF-32 (witness), so those are partial (lane values below the top)."
  },
  {
   "property": "C07",
   "status": "proved",
   "theorems": [
    "Verif.Swar.C07_has_char_less_exact",
    "Verif.Swar.C07_has_zero_exact",
    "Verif.Swar.C07_has_char_exact",
    "Verif.Swar.C07_fill_exact",
    "Verif.Swar.C07_fill_compl_exact",
    "Verif.Swar.C07_find_difference_exact",
    "Verif.Swar.C07_find_difference_equal",
    "Verif.Swar.C07_pack_exact",
    "Verif.Swar.C07_word_filled"
   ],
   "note": "For every lane width and lane count of the code; little endian packing."
  },
  {
   "property": "C08",
   "status": "proved",
   "theorems": [
    "Verif.CC.C08_class_algebra",
    "Verif.CC.C08_single",
    "Verif.CC.C08_class_token",
    "Verif.CC.C08_class_token_utf8",
    "Verif.CC.C08_class_token_byte"
   ],
   "note": "Union, complement, difference, intersection over arbitrary leaves satisfying CC.Ok; token level for the four Unicode encodings and the single byte encodings."
  },
  {
   "property": "C09",
   "status": "proved",
   "theorems": [
    "Verif.C09_compressed_exact"
   ],
   "note": "For every set and every code unit."
  },
  {
   "property": "C10",
   "status": "partial",
   "theorems": [
    "Verif.C10_literal_prefix",
    "Verif.C10_literal_swar",
    "Verif.C10_literal_swar_refuted"
   ],
   "note": "Full for unit-wise readers and for word-wise readers with a literal of the same character size; refuted for char literals on UTF-32 buffers (mismatch index computed with the wrong lane size). Literals do not contain the EOF-like unit."
  },
  {
   "property": "C11",
   "status": "partial",
   "theorems": [
    "Verif.C11_set_longest",
    "Verif.C11_set_order",
    "Verif.C11_set_longest_partial",
    "Verif.C11_mixed_refuted"
   ],
   "note": "Full for sets of plain literals in any order; with keywords for sets where equal spellings are equal rules; refuted for a literal and a keyword of the same spelling."
  },
  {
   "property": "C12",
   "status": "proved",
   "theorems": [
    "Verif.C12_symbol_longest",
    "Verif.C12_symbol_parse"
   ],
   "note": "Unit-wise (ASCII) case folding included through an idempotent fold; symbols without the EOF-like unit."
  },
  {
   "property": "C15",
   "status": "proved",
   "theorems": [
    "Verif.C15_ascii_case_folding",
    "Verif.C15_upper_literal_never"
   ],
   "note": "Literals without upper case letters, as the documentation requires; literals with upper case letters never match."
  },
  {
   "property": "C13",
   "status": "proved",
   "theorems": [
    "Verif.C13_keyword"
   ],
   "note": "For literals that are identifiers of the pattern and any of the four Unicode encodings."
  },
  {
   "property": "C14",
   "status": "partial",
   "theorems": [
    "Verif.C14_identifier_run",
    "Verif.C14_identifier_swar",
    "Verif.C14_reserve_exact_partial",
    "Verif.C14_reserve_sound",
    "Verif.C14_reserve_suffix_refuted",
    "Verif.C14_identifier_branch_partial",
    "Verif.C14_identifier_rule_partial"
   ],
   "note": "Pattern, equal/prefix/contains: full. reserve_suffix misses suffixes after an earlier occurrence (refuted, x_t_t); exact when members only occur at the end."
  },
  {
   "property": "C16",
   "status": "proved",
   "theorems": [
    "Verif.C16_digits_maximal",
    "Verif.C16_digits_fail",
    "Verif.C16_no_leading_zero",
    "Verif.C16_digits_sep",
    "Verif.C16_digits_sep_fail",
    "Verif.C16_n_digits",
    "Verif.C16_n_digits_sep",
    "Verif.C16_digits_swar",
    "Verif.C16_zero"
   ],
   "note": "Separators that do not match at a digit."
  },
  {
   "property": "C17",
   "status": "partial",
   "theorems": [
    "Verif.C17_integer_exact_partial",
    "Verif.C17_integer_sound",
    "Verif.C17_trailing_refuted",
    "Verif.C17_digits_end"
   ],
   "note": "Exact for every string ending in a digit (all the digit rules match); never a wrong value and never a missed overflow for all strings; spurious overflow after trailing non-digits refuted."
  },
  {
   "property": "C18",
   "status": "proved",
   "theorems": [
    "Verif.C18_n_digits_integer",
    "Verif.C18_code_point_id"
   ],
   "note": ""
  },
  {
   "property": "C61",
   "status": "partial",
   "theorems": [
    "Verif.C61_overflow_value_partial",
    "Verif.C61_overflow_value_refuted"
   ],
   "note": "Proved for types smaller than unsigned; refuted for unsigned and bounded."
  },
  {
   "property": "C62",
   "status": "partial",
   "theorems": [
    "Verif.C62_integer_range",
    "Verif.C62_separator_refuted"
   ],
   "note": "Skipping of digits proved; skipping of separators refuted."
  },
  {
   "property": "C19",
   "status": "proved",
   "theorems": [
    "Verif.C19_until",
    "Verif.C19_until_fail",
    "Verif.C19_until_or_eof",
    "Verif.C19_any",
    "Verif.C19_until_swar",
    "Verif.C19_any_swar"
   ],
   "note": "Conditions are tokens that do not match past the end."
  },
  {
   "property": "C20",
   "status": "partial",
   "theorems": [
    "Verif.C20_delimited",
    "Verif.C20_delimited_unique",
    "Verif.C20_quoted",
    "Verif.C20_char_class",
    "Verif.C20_char_bad",
    "Verif.C20_swar_partial",
    "Verif.C20_swar_limit_refuted",
    "Verif.C20_swar_folding_refuted"
   ],
   "note": "Full for unit-wise readers. With word-wise reads: proved without limit and with delimiters that only match at their first character; limits and case folded delimiters are refuted."
  },
  {
   "property": "C21",
   "status": "proved",
   "theorems": [
    "Verif.C21_newline",
    "Verif.C21_eol"
   ],
   "note": ""
  },
  {
   "property": "C22",
   "status": "proved",
   "theorems": [
    "Verif.C22_text",
    "Verif.C22_code_unit",
    "Verif.C22_byte"
   ],
   "note": "Positions before which there is no unit that is taken for EOF (otherwise the assertion of the code fails)."
  },
  {
   "property": "C23",
   "status": "proved",
   "theorems": [
    "Verif.C23_anchor"
   ],
   "note": ""
  },
  {
   "property": "C24",
   "status": "proved",
   "theorems": [
    "Verif.C24_line",
    "Verif.C24_annotation_end",
    "Verif.C24_annotation_size"
   ],
   "note": ""
  },
  {
   "property": "C64",
   "status": "proved",
   "theorems": [
    "Verif.C64_location_order"
   ],
   "note": ""
  },
  {
   "property": "C35",
   "status": "proved",
   "theorems": [
    "Verif.C35_events_nested",
    "Verif.C35_rule_nested"
   ],
   "note": "Every grammar of the modelled rules, every input, every fuel: the interpreter's event list."
  },
  {
   "property": "C36",
   "status": "proved",
   "theorems": [
    "Verif.C36_reader_forward",
    "Verif.C36_events_in_bounds",
    "Verif.C36_branch_not_taken"
   ],
   "note": ""
  },
  {
   "property": "C37",
   "status": "proved",
   "theorems": [
    "Verif.C37_tokens_tile_rule",
    "Verif.C37_tokens_tile",
    "Verif.C37_tokens_text"
   ],
   "note": ""
  },
  {
   "property": "C41",
   "status": "proved",
   "theorems": [
    "Verif.C41_rule_fail_error",
    "Verif.C41_fail_error",
    "Verif.C41_success_iff"
   ],
   "note": "dsl::find and dsl::recover only inside dsl::try_."
  },
  {
   "property": "C42",
   "status": "partial",
   "theorems": [
    "Verif.C42_actions_agree",
    "Verif.C42_success_has_value",
    "Verif.C42_steps",
    "Verif.PT.C42_tree_agrees",
    "Verif.PT.C42_tree_static",
    "Verif.PT.C42_tree_no_expr",
    "Verif.Xml.C42_xml",
    "Verif.Json.C42_json"
   ],
   "note": "match, validate and parse: full. parse_as_tree: whenever its tree builder does not run into the undefined behaviour refuted in C30; it never does for grammars without expressions whose entry production is not transparent (C42_tree_no_expr), and C33 says when else that is excluded."
  },
  {
   "property": "C33",
   "status": "partial",
   "theorems": [
    "Verif.PT.C33_lossless_partial",
    "Verif.PT.C33_lossless_plain_partial",
    "Verif.PT.C33_lossless_quiet_partial",
    "Verif.PT.C33_lossless_no_expr_partial",
    "Verif.PT.C33_lossless_static_partial",
    "Verif.Xml.C33_xml",
    "Verif.Xml.C33_xml_ends",
    "Verif.Json.C33_json",
    "Verif.Json.C33_json_text",
    "Verif.PT.C33_covers_partial",
    "Verif.Json.C33_json_covers",
    "Verif.Json.C33_json_ends",
    "Verif.PT.C33_failure_partial",
    "Verif.PT.C33_transparent_refuted"
   ],
   "note": "Every grammar, input and recovery, except for runs that cancel a transparent production that already has children, or start a second operator chain in one production; the tree is read back from the modelled memory. Parses that report no error: every grammar with a non-transparent entry production whose operator chains are not empty, in particular every grammar without expressions; shown for every JSON text and the JSON example. Grammars with neither expressions nor transparent productions: every parse, also with errors; shown for the XML example and every input. Every grammar with a non-transparent entry production, also with errors, if no operator chain is empty: no precondition is violated and the tokens cover what was consumed without a gap (C33_covers_partial). Refuted for cancelled transparent productions, whose tokens can be in the tree twice."
  },
  {
   "property": "C39",
   "status": "partial",
   "theorems": [
    "Verif.C39_first_matching",
    "Verif.C39_no_whitespace_refuted"
   ],
   "note": "Every list of branches; the taken branch behaves like the rule (apart from the token kind of context_identifier.rematch). Branches with no_whitespace at their head are excluded: refuted for them."
  },
  {
   "property": "C40",
   "status": "proved",
   "theorems": [
    "Verif.C40_peek",
    "Verif.C40_peek_not",
    "Verif.C40_peek_branch",
    "Verif.C40_peek_finish",
    "Verif.C40_lookahead_scan",
    "Verif.C40_lookahead",
    "Verif.C40_eof",
    "Verif.C40_eof_branch"
   ],
   "note": ""
  },
  {
   "property": "C54",
   "status": "proved",
   "theorems": [
    "Verif.C54_find",
    "Verif.C54_find_stops",
    "Verif.C54_recover"
   ],
   "note": "Inside dsl::try_."
  },
  {
   "property": "C45",
   "status": "partial",
   "theorems": [
    "Verif.C45_nesting",
    "Verif.C45_limit",
    "Verif.C45_enough_partial",
    "Verif.C45_depth_restored",
    "Verif.C45_enough_refuted"
   ],
   "note": "The limit and the error: full. That shallow input is never rejected: proved while no error was reported, refuted after recovery (the depth is not decremented when a recursive production fails)."
  },
  {
   "property": "C46",
   "status": "proved",
   "theorems": [
    "Verif.C46_visible",
    "Verif.C46_rule",
    "Verif.C46_production",
    "Verif.C46_counter_sum",
    "Verif.C46_operations",
    "Verif.C46_push",
    "Verif.C46_capture",
    "Verif.C46_conditions",
    "Verif.C46_found"
   ],
   "note": "Counters are unbounded integers in the model."
  },
  {
   "property": "C50",
   "status": "partial",
   "theorems": [
    "Verif.C50_whitespace_token",
    "Verif.C50_whitespace_rule",
    "Verif.C50_off",
    "Verif.C50_token",
    "Verif.C50_after_token",
    "Verif.C50_no_whitespace_partial",
    "Verif.C50_no_whitespace_branch_partial",
    "Verif.C50_no_whitespace_refuted",
    "Verif.C50_failure_refuted",
    "Verif.C50_production_refuted"
   ],
   "note": "Maximal skipping after tokens: full, for token and rule whitespace. Inside no_whitespace: proved for rules without nested (no_)whitespace; nested no_whitespace, and whitespace after a recovered failure inside of no_whitespace, are refuted; also that productions inside re-enable whitespace, as the manual says."
  },
  {
   "property": "C25",
   "status": "proved",
   "theorems": [
    "Verif.C25_decode",
    "Verif.C25_exact",
    "Verif.C25_native_independent"
   ],
   "note": "Memory whose size is a multiple of the unit size (otherwise the precondition of the code is violated)."
  },
  {
   "property": "C26",
   "status": "partial",
   "theorems": [
    "Verif.C26_bom",
    "Verif.C26_no_bom",
    "Verif.C26_no_bom_utf32_partial",
    "Verif.C26_no_bom_utf32_refuted"
   ],
   "note": "UTF-8 and UTF-16: full. UTF-32: refuted for data starting with 00 00 FE and a further non-zero byte (dropped as if it were a mark), proved otherwise."
  },
  {
   "property": "C27",
   "status": "partial",
   "theorems": [
    "Verif.C27_like_range",
    "Verif.C27_range_reader",
    "Verif.C27_eof",
    "Verif.C27_word",
    "Verif.C27_word_layout",
    "Verif.C27_builder",
    "Verif.C27_copy",
    "Verif.C27_from_input",
    "Verif.C27_default_constructed_refuted",
    "Verif.C27_default_constructed_partial",
    "Verif.C27_word_big_endian_partial",
    "Verif.C27_word_big_endian_refuted"
   ],
   "note": "Full for buffers with an allocation on little endian machines; a default constructed buffer has no sentinel (refuted), and word-wise reads on big endian machines are reversed (refuted)."
  },
  {
   "property": "C28",
   "status": "proved",
   "theorems": [
    "Verif.C28_reader",
    "Verif.C28_iterate",
    "Verif.C28_separator"
   ],
   "note": "Arguments without NUL, as in C."
  },
  {
   "property": "C29",
   "status": "partial",
   "theorems": [
    "Verif.C29_builder_partial",
    "Verif.C29_builder_refuted",
    "Verif.C29_stack",
    "Verif.C29_stdin",
    "Verif.C29_file",
    "Verif.C29_file_safe"
   ],
   "note": "Reading of streams and files: full. The builder as such copies too few bytes when growing for units larger than a byte (refuted); proved for bytes."
  },
  {
   "property": "C58",
   "status": "partial",
   "theorems": [
    "Verif.C58_partial",
    "Verif.C58_eof_after_newline_refuted",
    "Verif.C58_last_line_refuted",
    "Verif.C58_closed_at_once_refuted",
    "Verif.C58_default_prompt_refuted"
   ],
   "note": "Proved up to the last complete line; beyond it refuted."
  },
  {
   "property": "C66",
   "status": "proved",
   "theorems": [
    "Verif.Own.C66_safe",
    "Verif.Own.C66_no_leak",
    "Verif.Own.C66_unique_owner",
    "Verif.Own.C66_contents",
    "Verif.Own.C66_enough_memory"
   ],
   "note": ""
  },
  {
   "property": "C30",
   "status": "partial",
   "theorems": [
    "Verif.PT.C30_builds_partial",
    "Verif.PT.C30_tree_partial",
    "Verif.PT.C30_remaining_partial",
    "Verif.PT.C30_distinct_partial",
    "Verif.PT.C30_parent_partial",
    "Verif.PT.C30_is_root_partial",
    "Verif.PT.C30_is_last_child_partial",
    "Verif.PT.C30_cancel_transparent_refuted",
    "Verif.PT.C30_full_block_refuted",
    "Verif.PT.C30_second_container_refuted",
    "Verif.PT.C30_container_refuted"
   ],
   "note": "Memory-level model. Missing: the operations for which the code is wrong, each refuted with a witness: cancelling a transparent production that has added children; cancelling an empty container (when the block is full); a second container in a production without children (at the end of a block)."
  },
  {
   "property": "C31",
   "status": "partial",
   "theorems": [
    "Verif.PT.C31_depth_partial",
    "Verif.PT.C31_size_partial",
    "Verif.PT.C31_size_exact_partial",
    "Verif.PT.C31_size_refuted"
   ],
   "note": "Exact without cancelling; with cancelling the exact value of size() is given. Same operations left out as for C30."
  },
  {
   "property": "C32",
   "status": "partial",
   "theorems": [
    "Verif.PT.C32_traverse_partial",
    "Verif.PT.C32_siblings_partial"
   ],
   "note": "For every tree of C30 and every node. siblings() of the root is undefined behavior and left out."
  },
  {
   "property": "C34",
   "status": "partial",
   "theorems": [
    "Verif.PT.C34_tokens_partial",
    "Verif.PT.C34_find_covering_partial",
    "Verif.PT.C34_find_covering_parse_partial",
    "Verif.Json.C34_json",
    "Verif.PT.C34_position_partial",
    "Verif.PT.C34_covering_lexeme_partial",
    "Verif.PT.C34_position_refuted"
   ],
   "note": "For every tree of C30. find_covering_node finds a token for every consumed position in the tree of every parse whose entry production is not transparent and whose operator chains are not empty, also with errors; shown for the JSON example and every input. position() of a production without tokens is undefined behavior (refuted)."
  },
  {
   "property": "C67",
   "status": "partial",
   "theorems": [
    "Verif.PT.Blocks.C67_safe",
    "Verif.PT.Blocks.C67_no_leak_partial",
    "Verif.PT.Blocks.C67_reuse_leaks"
   ],
   "note": "Safety is proved in full; leak freedom if no grown buffer is reset and grown again, otherwise refuted."
  },
  {
   "property": "C47",
   "status": "proved",
   "theorems": [
    "Verif.C47_sound",
    "Verif.C47_recovery_refuted"
   ],
   "note": "For every operator table in which an operation has one level, every input and context. C47_recovery_refuted shows that the restriction to parses without error is needed."
  },
  {
   "property": "C48",
   "status": "partial",
   "theorems": [
    "Verif.C48_complete_partial",
    "Verif.C48_munch_refuted",
    "Verif.C48_chain_refuted"
   ],
   "note": "Proved if at each operator no other operation of the table matches; with an operator that is a prefix of another one of a different level it is refuted."
  },
  {
   "property": "C49",
   "status": "partial",
   "theorems": [
    "Verif.C49_bound_partial",
    "Verif.C48_complete_partial",
    "Verif.C49_refuted"
   ],
   "note": "The limit is on the number of operators, not on nesting: an expression accepted without error has at most max_operator_nesting operators, and with that many it is accepted; the statement about nesting is refuted."
  },
  {
   "property": "C68",
   "status": "proved",
   "theorems": [
    "Verif.C68_groups"
   ],
   "note": ""
  },
  {
   "property": "C51",
   "status": "proved",
   "theorems": [
    "Verif.C51_bytes",
    "Verif.C51_classes",
    "Verif.C51_padding",
    "Verif.C51_value",
    "Verif.C51_round_trip",
    "Verif.C51_injective",
    "Verif.C51_token"
   ],
   "note": ""
  },
  {
   "property": "C52",
   "status": "proved",
   "theorems": [
    "Verif.C52_bits"
   ],
   "note": ""
  },
  {
   "property": "C53",
   "status": "partial",
   "theorems": [
    "Verif.C53_flags",
    "Verif.C53_total",
    "Verif.C53_documented_partial",
    "Verif.C53_zero_refuted",
    "Verif.C53_range_refuted"
   ],
   "note": "Proved for the code's notion of duplicate (all bits already set). The documented notion, (result & flag) != 0, agrees only for flags that are single bits; a flag of value 0 is always a duplicate (refuted); the reported range includes whitespace (refuted)."
  },
  {
   "property": "C69",
   "status": "partial",
   "theorems": [
    "Verif.C69_token",
    "Verif.C69_identifier_partial",
    "Verif.C69_identifier_parse_partial",
    "Verif.C69_unknown_range_refuted",
    "Verif.C69_identifier_refuted"
   ],
   "note": "symbol(token) in full; symbol(identifier) if the symbols are identifiers of the class, otherwise refuted."
  },
  {
   "property": "C63",
   "status": "partial",
   "theorems": [
    "Verif.C63_literal",
    "Verif.C63_literal_utf16_partial",
    "Verif.C63_literal_utf16_refuted",
    "Verif.C63_string_partial",
    "Verif.C63_string_utf16_partial",
    "Verif.C63_string_inplace_partial",
    "Verif.C63_string_malformed_refuted",
    "Verif.C63_string_inplace_refuted",
    "Verif.C63_set_refuted",
    "Verif.Udb.C63_literal_library",
    "Verif.Udb.C63_literal_library_utf16_partial"
   ],
   "note": "Literals: proved for UTF-8 for every input, also with the folding of the library's own database; UTF-16 without high surrogates of even planes, which the decoder gets wrong (refuted otherwise). Strings: proved for well-formed text; refuted for malformed text (truncated) and for text with a unit equal to EOF. Literal sets and symbol tables: refuted, the nested readers do not restore their state. UTF-32 folds unit by unit and is covered by the literal theorems of C10/C12 with another folding function."
  },
  {
   "property": "C70",
   "status": "proved",
   "theorems": [
    "Verif.Udb.C70_case_fold",
    "Verif.C70_categories",
    "Verif.C70_ascii_classes",
    "Verif.C70_class_relations",
    "Verif.C70_classes_consistent",
    "Verif.C70_class_meaning"
   ],
   "note": "The tables were transcribed by script from the generated header; facts about them are checked by the kernel, block by block, and lifted to all code points. Not claimed: that the tables are those of Unicode 15.0."
  },
  {
   "property": "C55",
   "status": "proved",
   "theorems": [
    "Verif.Cb.C55_list",
    "Verif.Cb.C55_collection",
    "Verif.Cb.C55_concat",
    "Verif.Cb.C55_collect",
    "Verif.Cb.C55_fold",
    "Verif.Cb.C55_string",
    "Verif.Cb.C55_string_folded",
    "Verif.Cb.C55_aggregate",
    "Verif.Cb.C55_collection_size_refuted"
   ],
   "note": "std::vector and std::map/set are modelled by their contract (contents, capacity, number of allocations). The documented size of a collection (N arguments give N items) is refuted for duplicates."
  },
  {
   "property": "C71",
   "status": "proved",
   "theorems": [
    "Verif.Cb.C71_bind"
   ],
   "note": "Both the recursive and the direct implementation."
  },
  {
   "property": "C72",
   "status": "partial",
   "theorems": [
    "Verif.Cb.C72_as_integer_partial",
    "Verif.Cb.C72_as_integer_refuted"
   ],
   "note": "Proved unless the digits are of an unsigned type of at least 32 bits that is narrower than T; then refuted."
  },
  {
   "property": "C57",
   "status": "partial",
   "theorems": [
    "Verif.Vis.C57_utf8_partial",
    "Verif.Vis.C57_units",
    "Verif.Vis.C57_width",
    "Verif.Vis.C57_printable",
    "Verif.Vis.C57_display_width",
    "Verif.Vis.C57_color",
    "Verif.Vis.C57_color_pointer_partial",
    "Verif.Vis.C57_utf8_refuted",
    "Verif.Vis.C57_utf16_refuted",
    "Verif.Vis.C57_utf32_refuted",
    "Verif.Vis.C57_ellipsis_refuted",
    "Verif.Vis.C57_color_pointer_refuted"
   ],
   "note": "Nothing is lost for ASCII, default and byte encodings and for UTF-8 without bytes F8..FF (with unlimited width and tabs that are not replaced by spaces); refuted for the other Unicode lexemes. Width, printable output, display width and that colors change nothing else are proved for every encoding."
  },
  {
   "property": "C73",
   "status": "proved",
   "theorems": [
    "Verif.Vis.C73_tree"
   ],
   "note": ""
  },
  {
   "property": "C38",
   "status": "proved",
   "theorems": [
    "Verif.C38_accepted",
    "Verif.C38_rule"
   ],
   "note": "For every grammar whose operator literals are not empty and do not begin with EOF (ExprLits). The language is defined by derivations, without looking at how lexy parses; context variables are not part of it."
  },
  {
   "property": "C43",
   "status": "proved",
   "theorems": [
    "Verif.C43_repeat",
    "Verif.C43_repeat_exact",
    "Verif.C43_times",
    "Verif.C43_times_accepted",
    "Verif.C43_times_trailing_error"
   ],
   "note": "C43_repeat_exact holds whether errors are reported or not. Behind the last item only a separator that may be trailing."
  },
  {
   "property": "C44",
   "status": "proved",
   "theorems": [
    "Verif.C44_combination",
    "Verif.C44_duplicates",
    "Verif.C44_accepted"
   ],
   "note": "A branch that ends with break_ ends the combination early."
  },
  {
   "property": "C59",
   "status": "proved",
   "theorems": [
    "Verif.C59_list",
    "Verif.C59_quiet",
    "Verif.C59_accepted",
    "Verif.C59_nsep",
    "Verif.C60_terminated"
   ],
   "note": "ignore_trailing_sep: a list consumes the trailing separator without a report, times and repeat leave it."
  },
  {
   "property": "C60",
   "status": "proved",
   "theorems": [
    "Verif.C60_terminated",
    "Verif.C60_quiet"
   ],
   "note": "The terminator itself can still fail after it was taken as a branch."
  },
  {
   "property": "C56",
   "status": "partial",
   "theorems": [
    "Verif.C56_trace_iff_partial",
    "Verif.C56_one_line_partial",
    "Verif.C56_refuted"
   ],
   "note": "False as stated: after a production on a later line has finished, the anchor stays on that line, so that an error that begins on an earlier line (duplicate in a combination, trailing separator) cannot be located. C56_trace_iff_partial says exactly when tracing works, and that what it shows is right."
  },
  {
   "property": "C74",
   "status": "partial",
   "theorems": [
    "Verif.C74_events",
    "Verif.C74_status",
    "Verif.C74_finish",
    "Verif.C74_fatal",
    "Verif.C74_recovered",
    "Verif.C74_rule",
    "Verif.C74_branch_partial",
    "Verif.C74_discard",
    "Verif.C74_failed",
    "Verif.C74_scan_fails_partial",
    "Verif.C74_branch_refuted",
    "Verif.C74_discard_refuted",
    "Verif.C74_scan_fails_refuted"
   ],
   "note": "Nesting, tokens, positions and status are proved for every sequence of calls. The equivalence of branch and choice holds if the condition creates no variables; a failing scan() has reported an error if it returns no value only when the scanner is not ok."
  },
  {
   "property": "C75",
   "status": "partial",
   "theorems": [
    "Verif.Rep.C75_context",
    "Verif.Rep.C75_reportable",
    "Verif.Rep.C75_all_reported",
    "Verif.Rep.C75_alignment_partial",
    "Verif.Rep.C75_alignment_refuted",
    "Verif.Rep.C75_context_refuted"
   ],
   "note": "Alignment is proved for line numbers below 10000 and refuted beyond. Inputs must not contain the EOF unit of their encoding."
  },
  {
   "property": "C76",
   "status": "partial",
   "theorems": [
    "Verif.C76_not_followed",
    "Verif.C76_errors",
    "Verif.C76_in_set",
    "Verif.C76_class",
    "Verif.C76_followed_by_partial",
    "Verif.C76_followed_by_refuted"
   ],
   "note": "not_followed_by in full, with any folding of single units; followed_by fails exactly before a well-formed code point outside of the class, so it does not ensure that anything follows."
  },
  {
   "property": "C77",
   "status": "partial",
   "theorems": [
    "Verif.PT.C77_reader_partial",
    "Verif.PT.C77_reader_token_partial",
    "Verif.PT.C77_kind_partial",
    "Verif.PT.C77_kind_eq_partial",
    "Verif.PT.C77_position_partial",
    "Verif.PT.C77_tnode_partial",
    "Verif.PT.C77_pnode_partial",
    "Verif.PT.C77_mismatch_partial",
    "Verif.PT.C77_kind_eq_refuted",
    "Verif.PT.C77_position_refuted",
    "Verif.PT.C77_recover_refuted"
   ],
   "note": "For trees made by the builder operations covered by C30. Positions and node rules: only if every production has a child and the tokens are adjacent. The child rule is an arbitrary function reporting tokens that cover what it consumed; whitespace before the rule and the continuation are not part of the model of the node rules."
  },
  {
   "property": "C78",
   "status": "partial",
   "theorems": [
    "Verif.C78_code_point",
    "Verif.C78_code_point_utf8",
    "Verif.C78_code_point_byte",
    "Verif.C78_encoded_partial",
    "Verif.C78_encoded_refuted",
    "Verif.C78_bom_literal",
    "Verif.C78_bom_match"
   ],
   "note": "In full for ASCII, UTF-8, UTF-32 and the byte encodings; in UTF-16 only for the code points that are decoded faithfully. Names of the classes and the automatic whitespace after the token are not part of it."
  },
  {
   "property": "C79",
   "status": "partial",
   "theorems": [
    "Verif.Val.C79_continuations",
    "Verif.Val.C79_values_in_order",
    "Verif.Val.C79_lexemes_reported",
    "Verif.Val.C79_results_once",
    "Verif.Val.C79_parse_value",
    "Verif.Val.C79_callbacks_partial",
    "Verif.Val.C79_parsing_partial",
    "Verif.Val.C79_ends_partial",
    "Verif.Val.C79_return_in_try_refuted",
    "Verif.Val.C79_return_recovery_refuted",
    "Verif.Val.C79_return_in_parse_as_refuted",
    "Verif.Val.C79_return_no_whitespace_refuted",
    "Verif.Val.C79_return_in_push_refuted",
    "Verif.Val.C79_repeat_capture_refuted"
   ],
   "note": "Values are terms that record what a callback was given. Missing: the values of subgrammars (those of expressions are C97); that values do not change parsing is proved for grammars without return_ and with parse_as of tokens and productions only; that a parse with values ends whenever the one without does also needs that there is no value of a counter and no repeat with a separator. return_ within try_, parse_as, no_whitespace and push is refuted."
  },
  {
   "property": "C80",
   "status": "partial",
   "theorems": [
    "Verif.Tot.C80_terminates",
    "Verif.Tot.C80_rule",
    "Verif.Tot.C80_idle_loop",
    "Verif.Tot.C80_no_variable",
    "Verif.Tot.C80_recovery_circle",
    "Verif.Tot.C80_recovery_stuck",
    "Verif.Tot.C80_depth_refuted"
   ],
   "note": "The criterion is Wf (GrammarWf.lean), with Eats and Moves (GrammarEats.lean) for rules that consume input. Grammars with try_/list conditions that are no branches do not meet it; items of terminated lists without separator have to consume input whenever their branch is taken, which excludes recursive branches: there the parse does not end (refuted)."
  },
  {
   "property": "C81",
   "status": "proved",
   "theorems": [
    "Verif.Json.C81_ends",
    "Verif.Json.C81_accepts"
   ],
   "note": "The grammar of JSON is specified in JsonSpec.lean, independently of the grammar of the example in Json.lean. The values are not part of it."
  },
  {
   "property": "C82",
   "status": "partial",
   "theorems": [
    "Verif.Json.C82_sound_partial",
    "Verif.Json.C82_complete_partial",
    "Verif.Json.C82_garbage_refuted",
    "Verif.Json.C82_control_refuted",
    "Verif.Json.C82_min_refuted",
    "Verif.Json.C82_depth_refuted"
   ],
   "note": "Sound for inputs without the byte 0xFF, complete for texts within the limits of the example. Limits on numbers and on nesting are allowed by RFC 8259 section 9, the others are not."
  },
  {
   "property": "C83",
   "status": "partial",
   "theorems": [
    "Verif.Ip.C83_address",
    "Verif.Ip.C83_draft_partial",
    "Verif.Ip.C83_digits_refuted"
   ],
   "note": "C83_address is an equivalence for all texts, without the limit of four digits per piece. The scanner is written out; events and positions of errors are not part of the model."
  },
  {
   "property": "C84",
   "status": "partial",
   "theorems": [
    "Verif.Ip.C84_finish",
    "Verif.Ip.C84_ub",
    "Verif.Ip.C84_safe_partial",
    "Verif.Ip.C84_before_refuted",
    "Verif.Ip.C84_after_refuted"
   ],
   "note": "C84_ub is the exact condition."
  },
  {
   "property": "C85",
   "status": "partial",
   "theorems": [
    "Verif.Desc.C85_equal_partial",
    "Verif.Desc.C85_same",
    "Verif.Desc.C85_defined",
    "Verif.Desc.C85_escape",
    "Verif.Desc.C85_modulo_refuted",
    "Verif.Desc.C85_backslash_refuted",
    "Verif.Desc.C85_isprint_refuted"
   ],
   "note": "Exact for names without newline that do not start with a space or dash, and texts of units below 0xFF without a backslash followed by an opening brace. C85_defined is the exact condition for the comparison to be defined."
  },
  {
   "property": "C86",
   "status": "partial",
   "theorems": [
    "Verif.Sv.C86_construct",
    "Verif.Sv.C86_terminated",
    "Verif.Sv.C86_access_partial",
    "Verif.Sv.C86_cstr",
    "Verif.Sv.C86_remove",
    "Verif.Sv.C86_substr_partial",
    "Verif.Sv.C86_equal",
    "Verif.Sv.C86_prefix_partial",
    "Verif.Sv.C86_find_partial",
    "Verif.Sv.C86_stays",
    "Verif.Sv.C86_type_name",
    "Verif.Sv.C86_template_name",
    "Verif.Sv.C86_empty_prefix_refuted",
    "Verif.Sv.C86_find_empty_refuted",
    "Verif.Sv.C86_index_refuted"
   ],
   "note": "Proved except for empty views and needles, and for the index one behind the view. What the compiler prints is an assumption."
  },
  {
   "property": "C87",
   "status": "partial",
   "theorems": [
    "Verif.Itr.C87_range_size",
    "Verif.Itr.C87_next_partial",
    "Verif.Itr.C87_next_clamped_partial",
    "Verif.Itr.C87_min_range_end",
    "Verif.Itr.C87_max_range_end",
    "Verif.Itr.C87_equal_lexemes",
    "Verif.Itr.C87_next_refuted",
    "Verif.Itr.C87_next_clamped_refuted"
   ],
   "note": "Proved for distances below 2^32, and for next_clamped whenever it is clamped."
  },
  {
   "property": "C88",
   "status": "proved",
   "theorems": [
    "Verif.Lz.C88_refines",
    "Verif.Lz.C88_flag"
   ],
   "note": "The storage, its flag and the lifetimes refine optional variables."
  },
  {
   "property": "C89",
   "status": "proved",
   "theorems": [
    "Verif.Xml.C89_accepts",
    "Verif.Xml.C89_complete",
    "Verif.Xml.C89_ends"
   ],
   "note": "The documents are specified in XmlSpec.lean, independently of the grammar of the example in Xml.lean. That it ends is C89_ends, by the criterion of C80. The values are not part of it."
  },
  {
   "property": "C90",
   "status": "partial",
   "theorems": [
    "Verif.Xml.C90_complete_partial",
    "Verif.Xml.C90_control_refuted",
    "Verif.Xml.C90_utf8_refuted",
    "Verif.Xml.C90_comment_refuted",
    "Verif.Xml.C90_text_refuted",
    "Verif.Xml.C90_depth_refuted"
   ],
   "note": "Complete for documents within the limit of the depth. What else is accepted is known exactly by C89."
  },
  {
   "property": "C91",
   "status": "partial",
   "theorems": [
    "Verif.Inp.C91_range",
    "Verif.Inp.C91_string",
    "Verif.Inp.C91_default",
    "Verif.Inp.C91_zstring",
    "Verif.Inp.C91_zstring_unterminated",
    "Verif.Inp.C91_lexeme",
    "Verif.Inp.C91_partial_input",
    "Verif.Inp.C91_context_partial",
    "Verif.Inp.C91_context_refuted"
   ],
   "note": "All inputs refine reading the text. The locations of errors are only those of the whole input if the parent of the lexeme_input is not one itself."
  },
  {
   "property": "C92",
   "status": "partial",
   "theorems": [
    "Verif.Tk.C92_value_partial",
    "Verif.Tk.C92_value_injective",
    "Verif.Tk.C92_predefined",
    "Verif.Tk.C92_raw",
    "Verif.Tk.C92_lookup",
    "Verif.Tk.C92_map_partial",
    "Verif.Tk.C92_rule_partial",
    "Verif.Tk.C92_narrow",
    "Verif.Tk.C92_conversion",
    "Verif.Tk.C92_value_refuted",
    "Verif.Tk.C92_map_refuted",
    "Verif.Tk.C92_unsigned_refuted",
    "Verif.Tk.C92_unchecked_refuted"
   ],
   "note": "Holds for int and enumerations with the values up to 65535, and tokens that are mapped once."
  },
  {
   "property": "C93",
   "status": "proved",
   "theorems": [
    "Verif.Meta.C93_index_sequence",
    "Verif.Meta.C93_tuple",
    "Verif.Meta.C93_string",
    "Verif.Meta.C93_c_str"
   ],
   "note": "Parameter packs are lists."
  },
  {
   "property": "C94",
   "status": "proved",
   "theorems": [
    "Verif.Val.C94_sign"
   ],
   "note": "For encodings whose end of input is neither sign."
  },
  {
   "property": "C95",
   "status": "partial",
   "theorems": [
    "Verif.C95_variables",
    "Verif.C95_rule",
    "Verif.C95_top_level_partial",
    "Verif.C95_tree_without",
    "Verif.C95_tree_refuted",
    "Verif.C95_whitespace_refuted",
    "Verif.C95_depth_refuted"
   ],
   "note": "The subgrammar is not a rule of the grammar interpreter; it is modelled as a step between two rules of a production. That a production parses like the top level action is proved for states in which whitespace skipping is not disabled and dsl::recurse is not active."
  },
  {
   "property": "C96",
   "status": "partial",
   "theorems": [
    "Verif.Ty.C96_message",
    "Verif.Ty.C96_shown",
    "Verif.Ty.C96_is_shown",
    "Verif.Ty.C96_is_partial",
    "Verif.Ty.C96_is_refuted",
    "Verif.Ty.C96_type_id_partial",
    "Verif.Ty.C96_type_id_refuted"
   ],
   "note": "is<Tag>() is right for tags in the same outermost namespace without a name of their own; type_id for types that declare their name themselves."
  },
  {
   "property": "C97",
   "status": "partial",
   "theorems": [
    "Verif.ExV.C97_same_parse",
    "Verif.ExV.C97_value_partial",
    "Verif.ExV.C97_sound_partial",
    "Verif.ExV.C97_void_op_refuted"
   ],
   "note": "Proved for expression grammars that meet ExprOk (see C47), whose atom is not itself an expression, and whose list operators have values. The values of atoms and operators are any functions of the state in which they are parsed."
  },
  {
   "property": "C98",
   "status": "proved",
   "theorems": [
    "Verif.C98_values",
    "Verif.vlang_lang",
    "Verif.Val.C98_integer",
    "Verif.Val.C98_symbol",
    "Verif.Val.C98_delimited"
   ],
   "note": "For grammars without return_, with parse_as and the number of repeat around tokens and productions only, and push of a counter around those and while_ (VR.std), and operators that are told apart by their spelling (ExprLits). Expressions are not among the rules with values (see C97); the value of a counter is any number. vlang_lang: what has values is derived by the grammar without them. C98_integer is for digits without separators."
  },
  {
   "property": "C99",
   "status": "partial",
   "theorems": [
    "Verif.Json.C99_value",
    "Verif.Json.C99_parse",
    "Verif.Json.C99_unambiguous",
    "Verif.Json.C99_complete",
    "Verif.Json.C99_ends",
    "Verif.Json.C99_defined",
    "Verif.Json.C99_means",
    "Verif.Json.C99_number_partial",
    "Verif.Json.C99_sign_refuted"
   ],
   "note": "For inputs of bytes. Different numbers have different values unless one is negative with the integer part 0. Escaped surrogates stay separate, as the example documents."
  },
  {
   "property": "C100",
   "status": "partial",
   "theorems": [
    "Verif.Json.C100_text_partial",
    "Verif.Json.C100_roundtrip_partial",
    "Verif.Json.C100_program_partial",
    "Verif.Json.C100_order",
    "Verif.Json.C100_sorted",
    "Verif.Json.C100_escapes",
    "Verif.Json.C100_fixpoint_partial",
    "Verif.Json.C100_control_refuted",
    "Verif.Json.C100_iscntrl_refuted"
   ],
   "note": "For values whose strings and keys are printable ASCII, nested at most 19 deep, with nonempty digits as fractions and numbers that the grammar can have written; equal up to the order of the members. The full claim is false: control characters are printed as \\xNN, and std::iscntrl has undefined behavior for negative char (char signed, the C locale)."
  },
  {
   "property": "C101",
   "status": "partial",
   "theorems": [
    "Verif.Calc.C101_session_partial",
    "Verif.Calc.C101_defined_partial",
    "Verif.Calc.C101_exact_partial",
    "Verif.Calc.C101_overflow_refuted",
    "Verif.Calc.C101_zero_refuted",
    "Verif.Calc.C101_redefine_refuted",
    "Verif.Calc.C101_restore_refuted"
   ],
   "note": "An equivalence for sessions in which functions are only defined by whole statements, with 32 bit int. std::pow is taken to be exact for integer results below 2^31. Stack depth is not modelled. The full claim is false for functions defined within expressions, and the behavior is undefined where results are not values of an int."
  },
  {
   "property": "C102",
   "status": "partial",
   "theorems": [
    "Verif.C102_sound_partial",
    "Verif.C102_complete_partial",
    "Verif.C102_postfix_refuted",
    "Verif.C102_subexpr_refuted",
    "Verif.C102_nested_refuted",
    "Verif.C102_shared_refuted"
   ],
   "note": "Soundness when postfix operators bind tighter than infix operators and the root operation of a subexpression is in no group; completeness without groups in groups and operations in two groups, and with the other restrictions of C48."
  },
  {
   "property": "C103",
   "status": "partial",
   "theorems": [
    "Verif.Tm.C103_program_partial",
    "Verif.Tm.C103_executed",
    "Verif.Tm.C103_number_refuted",
    "Verif.Tm.C103_negative_refuted",
    "Verif.Tm.C103_syntax_refuted"
   ],
   "note": "For every program without white space after numbers, nested at most 1024 deep: no error, no other result than that of the program, and that one if the program ends, all values are values of an int and variables that are assigned to with := are not negative. The claim without these conditions is refuted, and so is that other texts are rejected; C103_executed says what is executed of any text. What happens after the first error is not modelled."
  },
  {
   "property": "C104",
   "status": "partial",
   "theorems": [
    "Verif.Pb.C104_message_partial",
    "Verif.Pb.C104_exact_partial",
    "Verif.Pb.C104_number_refuted",
    "Verif.Pb.C104_signed_refuted"
   ],
   "note": "Every message whose numbers have at most five bytes (or six if certain bits are zero) is printed; for inputs without five bytes in a row with the highest bit set, exactly the messages are accepted. Longer numbers are wrong or undefined behavior, refuted; the signed values printed are wrong, refuted. Floating point values and the display of bytes are not modelled."
  },
  {
   "property": "C105",
   "status": "partial",
   "theorems": [
    "Verif.Em.C105_message_partial",
    "Verif.Em.C105_rfc_partial",
    "Verif.Em.C105_name_refuted",
    "Verif.Em.C105_blank_refuted",
    "Verif.Em.C105_tilde_refuted"
   ],
   "note": "In both directions for the texts the example is made for, and for the part they have in common with RFC 5322. The three differences are refuted with witnesses (the tests of the example expect the first one). Folding white space, comments, groups, other headers are left out by the example itself. What is printed is not modelled."
  },
  {
   "property": "C106",
   "status": "partial",
   "theorems": [
    "Verif.Cfg.C106_file_partial",
    "Verif.Cfg.C106_utf8_partial",
    "Verif.Cfg.C106_output_partial",
    "Verif.Cfg.C106_surrogate_refuted",
    "Verif.Cfg.C106_end_refuted",
    "Verif.Cfg.C106_null_refuted",
    "Verif.Cfg.C106_lines_refuted"
   ],
   "note": "In both directions for files without a byte 0xFF. The four exceptions are refuted with witnesses. What is printed after an error that was recovered from is not modelled."
  },
  {
   "property": "C107",
   "status": "partial",
   "theorems": [
    "Verif.Sh.C107_run_partial",
    "Verif.Sh.C107_set_echo",
    "Verif.Sh.C107_end_refuted"
   ],
   "note": "In both directions for inputs without a byte 0xFF; that byte is refuted with a witness. What the directives trace and vars print is not modelled; an input is what the user enters from a prompt on."
  },
  {
   "property": "C108",
   "status": "partial",
   "theorems": [
    "Verif.CalcP.C108_calculator_parses_partial",
    "Verif.CalcP.C108_unambiguous",
    "Verif.CalcP.C108_byte_refuted"
   ],
   "note": "In both directions for inputs without a byte 0xFF; that byte is refuted with a witness. The limits of the code are part of the grammar: 256 operators in an expression that is not nested, 1024 nested expressions. What is done after an error is not modelled."
  },
  {
   "property": "C109",
   "status": "partial",
   "theorems": [
    "Verif.CalcP.C109_calculator_partial",
    "Verif.CalcP.C109_parsed"
   ],
   "note": "C108 and C101 together, with their restrictions: functions are only defined by whole statements, no byte 0xFF. Refuted otherwise by Calc.C101_redefine_refuted, Calc.C101_restore_refuted and CalcP.C108_byte_refuted."
  },
  {
   "property": "C110",
   "status": "proved",
   "theorems": [
    "Verif.Bk.C110_between",
    "Verif.Bk.C110_accepted",
    "Verif.Bk.C110_recovered",
    "Verif.Bk.C110_limited",
    "Verif.Bk.C110_no_recovery",
    "Verif.Bk.C110_forms",
    "Verif.Bk.C110_list",
    "Verif.Bk.C110_list_forms",
    "Verif.Bk.C110_limit",
    "Verif.Bk.C110_predefined"
   ],
   "note": "The contents are any rules; what they match without an error is Spec.Lang (C38). Recovery of list is stated for a first item that fails in a list with a separator; for the other steps of the loop see C60."
  },
  {
   "property": "C111",
   "status": "proved",
   "theorems": [
    "Verif.C111_parsed",
    "Verif.C111_accepted",
    "Verif.C111_stops",
    "Verif.C111_loop_parsed",
    "Verif.C111_loop_accepted"
   ],
   "note": "What the branch matches without an error is Spec.Lang (C38); C111_parsed, like C38, is for grammars in which the literals of all expressions are matched by their spelling (ExprLits)."
  },
  {
   "property": "C112",
   "status": "proved",
   "theorems": [
    "Verif.Pn.C112_matches",
    "Verif.Pn.C112_apart",
    "Verif.Pn.C112_choice",
    "Verif.Pn.C112_colon"
   ],
   "note": "For encodings whose end of file, if it is a code unit, is not ASCII."
  }
 ]
}