{
 "claims": [
  {
   "property": "C01",
   "status": "partial",
   "theorems": [
    "YamlPeg.Props.C01_returns_partial",
    "YamlPeg.Props.C01_bounded_partial",
    "YamlPeg.Props.C01_counterexample_single_quote",
    "YamlPeg.Props.C01_counterexample_double_quote",
    "YamlPeg.Props.C01_counterexample_stale_indent"
   ],
   "note": "False as stated: every document opening with an unclosed quote hangs, for all bodies, and so does every document whose last value stands in the column of its key, followed by `--- text` (C01_counterexample_*). Proved: documents of any size and depth are parsed in finite time by both entry points if every quote, anchor and tag that stands where a value may begin is closed, and every `---` that is not at the very beginning has its line for itself. Missing: later documents with text on the line of their `---` (C01_counterexample_stale_indent: some of these do hang)."
  },
  {
   "property": "C02",
   "status": "partial",
   "theorems": [
    "YamlPeg.Props.C02_counterexample_handle",
    "YamlPeg.Props.C02_counterexample_int_keys",
    "YamlPeg.Props.C02_panic_causes_partial",
    "YamlPeg.Props.C02_panic_causes_cyclic_partial",
    "YamlPeg.Props.C02_no_panic_partial",
    "YamlPeg.Props.C02_no_panic_text_partial"
   ],
   "note": "False in general: undefined tag handles panic (proved at any depth, C31_unknown_handle_panics) and so do equal Int keys outside i64. Proved: the only panics possible are those two, so parse never panics for documents without them."
  },
  {
   "property": "C03",
   "status": "partial",
   "theorems": [
    "YamlPeg.Props.C03_cursor_inside",
    "YamlPeg.Props.C03_food_text",
    "YamlPeg.Props.C03_calls_partial",
    "YamlPeg.Props.C03_consume_err_panics"
   ],
   "note": "Cursor invariant proved for all histories (full). Calls can panic on an unknown tag handle, and err() after consume() panics (C03_consume_err_panics is the counterexample), so 'no call panics' is only partial. back(n) is in the alphabet for a caller that goes back to its mark at most; histories start anywhere in the document (new(doc).pos(p))."
  },
  {
   "property": "C04",
   "status": "proved",
   "theorems": [
    "YamlPeg.Props.C04_take_while",
    "YamlPeg.Props.C04_counterexample_range_zero"
   ],
   "note": "For every state, predicate and option except Range(lo,0)."
  },
  {
   "property": "C05",
   "status": "proved",
   "theorems": [
    "YamlPeg.Props.C05_context",
    "YamlPeg.Props.C05_sub_parsers",
    "YamlPeg.Props.C05_text_after"
   ],
   "note": "All public sub-parsers, from every reachable state."
  },
  {
   "property": "C06",
   "status": "proved",
   "theorems": [
    "YamlPeg.Props.C06_indicated_msg",
    "YamlPeg.Props.C06_indicated_msg_file",
    "YamlPeg.Props.C06_line_is_whole_line"
   ],
   "note": ""
  },
  {
   "property": "C07",
   "status": "proved",
   "theorems": [
    "YamlPeg.Props.C07_indicated_msg_panics"
   ],
   "note": ""
  },
  {
   "property": "C08",
   "status": "proved",
   "theorems": [
    "YamlPeg.Props.C08_errors_point_into_document",
    "YamlPeg.Props.C08_errors_point_into_document_cyclic",
    "YamlPeg.Props.C08_no_message_panic"
   ],
   "note": ""
  },
  {
   "property": "C09",
   "status": "proved",
   "theorems": [
    "YamlPeg.Props.C09_positions_inside",
    "YamlPeg.Props.C09_positions_inside_cyclic",
    "YamlPeg.Props.C09_number_texts"
   ],
   "note": ""
  },
  {
   "property": "C10",
   "status": "proved",
   "theorems": [
    "YamlPeg.Props.C10_no_alias"
   ],
   "note": ""
  },
  {
   "property": "C11",
   "status": "proved",
   "theorems": [
    "YamlPeg.Props.C11_one_table_per_document",
    "YamlPeg.Props.C11_at_least_one_document"
   ],
   "note": ""
  },
  {
   "property": "C12",
   "status": "proved",
   "theorems": [
    "YamlPeg.Props.C12_agree",
    "YamlPeg.Props.C12_same_outcome"
   ],
   "note": "For every document without '*', every seed and every amount of running time the two entry points have the same outcome (nodes with positions and tags, error, panic or hang)."
  },
  {
   "property": "C13",
   "status": "proved",
   "theorems": [
    "YamlPeg.Props.C13_second_anchor",
    "YamlPeg.Props.C13_second_anchor_flow",
    "YamlPeg.Props.C13_define_twice",
    "YamlPeg.Props.C13_flow_define_twice",
    "YamlPeg.Props.C13_each_document",
    "YamlPeg.Props.C13_bindings_kept",
    "YamlPeg.Props.C13_bindings_kept_mismatch",
    "YamlPeg.Props.C13_finished_tables_kept",
    "YamlPeg.Props.C13_second_definition_fails"
   ],
   "note": "From every reachable loader state; and for every regular layout, with the exact report, at any depth, in block and flow collections."
  },
  {
   "property": "C14",
   "status": "proved",
   "theorems": [
    "YamlPeg.Props.C14_unknown_alias",
    "YamlPeg.Props.C14_parses_iff",
    "YamlPeg.Props.C14_define_then_use",
    "YamlPeg.Props.C14_flow_define_then_use",
    "YamlPeg.Props.C14_define_then_use_other",
    "YamlPeg.Props.C14_other_document",
    "YamlPeg.Props.C14_flow_unknown_alias",
    "YamlPeg.Props.C14_alias_value",
    "YamlPeg.Props.C14_unbound_alias_fails",
    "YamlPeg.Props.C14_alias_cyclic"
   ],
   "note": "From every reachable loader state; and for every regular layout: it parses iff every alias follows its definition in its document, no name is defined twice and every handle is declared (block and flow collections, without complex keys)."
  },
  {
   "property": "C15",
   "status": "proved",
   "theorems": [
    "YamlPeg.Props.C15_plain_line",
    "YamlPeg.Props.C15_keyword",
    "YamlPeg.Props.C15_word"
   ],
   "note": "For every plain line (first byte a letter) and every idle tail; words as a special case."
  },
  {
   "property": "C16",
   "status": "proved",
   "theorems": [
    "YamlPeg.Props.C16_keywords",
    "YamlPeg.Props.C16_other_text"
   ],
   "note": "At the level of the resolution of a plain scalar's text."
  },
  {
   "property": "C17",
   "status": "partial",
   "theorems": [
    "YamlPeg.Props.C17_decimal_integer_partial",
    "YamlPeg.Props.C17_end_of_input_is_string",
    "YamlPeg.Props.C17_comment_makes_string"
   ],
   "note": "False at the end of the input and before a comment (C17_end_of_input_is_string, C17_comment_makes_string, for all integers); proved when a line break follows, with the value of as_int."
  },
  {
   "property": "C18",
   "status": "partial",
   "theorems": [
    "YamlPeg.Props.C18_fraction_rounded_partial",
    "YamlPeg.Props.C18_scientific_rounded_partial",
    "YamlPeg.Props.C18_decimal_float_partial",
    "YamlPeg.Props.C18_scientific_partial",
    "YamlPeg.Props.C18_end_of_input_is_string",
    "YamlPeg.Props.C18_fraction_with_exponent_is_string"
   ],
   "note": "False at the end of the input (C18_end_of_input_is_string) and for a fraction with exponent; proved when a line break follows, with the exact rounded value of as_float."
  },
  {
   "property": "C19",
   "status": "partial",
   "theorems": [
    "YamlPeg.Props.C19_hexadecimal_partial",
    "YamlPeg.Props.C19_octal_partial",
    "YamlPeg.Props.C19_digit_a_rejected",
    "YamlPeg.Props.C19_wrong_digits_accepted"
   ],
   "note": "False for the digit a and for wrong digits (counterexamples); proved for all other hexadecimal digits and all octal numerals, with the value of as_int."
  },
  {
   "property": "C20",
   "status": "proved",
   "theorems": [
    "YamlPeg.Props.C20_single_quoted"
   ],
   "note": "All UTF-8 strings without line breaks."
  },
  {
   "property": "C21",
   "status": "partial",
   "theorems": [
    "YamlPeg.Props.C21_counterexample_backslash",
    "YamlPeg.Props.C21_double_quoted_partial"
   ],
   "note": "All UTF-8 strings that do not end in a backslash round trip; C21_counterexample_backslash proves that every string ending in a backslash makes the parser loop forever, so the two theorems together settle every string."
  },
  {
   "property": "C22",
   "status": "proved",
   "theorems": [
    "YamlPeg.Props.C22_escape",
    "YamlPeg.Props.C22_escape_plain"
   ],
   "note": ""
  },
  {
   "property": "C23",
   "status": "proved",
   "theorems": [
    "YamlPeg.Props.C23_literal",
    "YamlPeg.Props.C23_folded",
    "YamlPeg.Props.C23_counterexample_leading_empty_line",
    "YamlPeg.Props.C23_counterexample_no_final_newline"
   ],
   "note": "Conditions on the block (first and last line with content, final line break, value of a map key) are part of the statement; the counterexample theorems show what happens without them."
  },
  {
   "property": "C24",
   "status": "proved",
   "theorems": [
    "YamlPeg.Props.C24_flow",
    "YamlPeg.Props.C24_flow_sequence",
    "YamlPeg.Props.C24_length_and_order"
   ],
   "note": ""
  },
  {
   "property": "C25",
   "status": "proved",
   "theorems": [
    "YamlPeg.Props.C25_block_sequence",
    "YamlPeg.Props.C25_length_and_order",
    "YamlPeg.Props.C25_comment_item"
   ],
   "note": "C25_comment_item shows that a comment behind the dash is the item, not a comment."
  },
  {
   "property": "C26",
   "status": "proved",
   "theorems": [
    "YamlPeg.Props.C26_block_map",
    "YamlPeg.Props.C26_distinct_keys",
    "YamlPeg.Props.C26_last_value_wins"
   ],
   "note": "Keys are strings; C26_block_map covers all scalar keys that hash consistently."
  },
  {
   "property": "C27",
   "status": "partial",
   "theorems": [
    "YamlPeg.Props.C27_takes_siblings",
    "YamlPeg.Props.C27_never"
   ],
   "note": "FALSE of the code: C27_never refutes it for every choice of keys and values; C27_takes_siblings says what happens instead (all entries below become the value), for all entries above and below."
  },
  {
   "property": "C28",
   "status": "partial",
   "theorems": [
    "YamlPeg.Props.C28_key_alone",
    "YamlPeg.Props.C28_key_at_end",
    "YamlPeg.Props.C28_map_at_end",
    "YamlPeg.Props.C28_cut_is_null",
    "YamlPeg.Props.C28_unclosed_is_null",
    "YamlPeg.Props.C28_items",
    "YamlPeg.Props.C28_values"
   ],
   "note": "FALSE of the code: C28_unclosed_is_null refutes it for every sequence or map left open behind an item or a value (nested to any depth): the document is null.  C28_cut_is_null: the same where the input ends in front of an item or a value (behind the bracket, a comma, or a colon).  C28_items and C28_values: in a block sequence or map the unclosed item or value is null and the others are read as usual.  The cases that are rejected as they should be: C28_key_alone, C28_key_at_end, C28_map_at_end."
  },
  {
   "property": "C29",
   "status": "proved",
   "theorems": [
    "YamlPeg.Props.C29_documents",
    "YamlPeg.Props.C29_marked",
    "YamlPeg.Props.C29_count",
    "YamlPeg.Props.C29_counterexample_empty_document"
   ],
   "note": "Scalars here; C52 has all layouts (a scalar on the line of a later `---` needs that the document in front does not end in a flush-left value, see C01_counterexample_stale_indent)."
  },
  {
   "property": "C30",
   "status": "partial",
   "theorems": [
    "YamlPeg.Props.C30_second_version",
    "YamlPeg.Props.C30_bad_version_partial",
    "YamlPeg.Props.C30_accepted",
    "YamlPeg.Props.C30_unknown_ignored",
    "YamlPeg.Props.C30_counterexample_version",
    "YamlPeg.Props.C30_counterexample_second_document"
   ],
   "note": "Second versions, bad versions and unknown directives proved for all directive lists; versions such as 1.20 are not reported (C30_counterexample_version)."
  },
  {
   "property": "C31",
   "status": "partial",
   "theorems": [
    "YamlPeg.Props.C31_tag_partial",
    "YamlPeg.Props.C31_root_tag_partial",
    "YamlPeg.Props.C31_named_handle",
    "YamlPeg.Props.C31_unknown_handle_panics",
    "YamlPeg.Props.C31_undeclared_root_panics",
    "YamlPeg.Props.C31_counterexample_primary",
    "YamlPeg.Props.C31_counterexample_next_line"
   ],
   "note": "Resolution proved for every directive list, every tag notation; an undefined handle is a panic, not an error (proved at any depth); a tag on the line after --- is lost."
  },
  {
   "property": "C32",
   "status": "partial",
   "theorems": [
    "YamlPeg.Props.C32_floats",
    "YamlPeg.Props.C32_eq_is_same_data",
    "YamlPeg.Props.C32_refl",
    "YamlPeg.Props.C32_symm",
    "YamlPeg.Props.C32_trans",
    "YamlPeg.Props.C32_ignores_pos_and_tag",
    "YamlPeg.Props.C32_counterexample_panic"
   ],
   "note": "Equality is an equivalence on all nodes whose numbers are readable, and ignores position and tag; on unreadable numbers (Int outside i64, reachable) eq panics: C32_counterexample_panic."
  },
  {
   "property": "C33",
   "status": "partial",
   "theorems": [
    "YamlPeg.Props.C33_counterexample",
    "YamlPeg.Props.C33_hash_partial",
    "YamlPeg.Props.C33_hash_canonical_partial"
   ],
   "note": "False in general: C33_counterexample (Int 16 vs 0x10). Proved for nodes whose equal numbers are written alike."
  },
  {
   "property": "C34",
   "status": "partial",
   "theorems": [
    "YamlPeg.Props.C34_last_value_wins",
    "YamlPeg.Props.C34_keys_differ",
    "YamlPeg.Props.C34_order",
    "YamlPeg.Props.C34_counterexample"
   ],
   "note": "Proved for every hash configuration when equal keys hash equally; false otherwise (C34_counterexample)."
  },
  {
   "property": "C35",
   "status": "proved",
   "theorems": [
    "YamlPeg.Props.C35_float_number",
    "YamlPeg.Props.C35_float_word",
    "YamlPeg.Props.C35_float_only",
    "YamlPeg.Props.C35_as_number_int",
    "YamlPeg.Props.C35_int_texts",
    "YamlPeg.Props.C35_int_one_value",
    "YamlPeg.Props.C35_int_mark_inside",
    "YamlPeg.Props.C35_as_bool",
    "YamlPeg.Props.C35_as_int",
    "YamlPeg.Props.C35_as_float",
    "YamlPeg.Props.C35_as_number",
    "YamlPeg.Props.C35_as_str",
    "YamlPeg.Props.C35_as_seq",
    "YamlPeg.Props.C35_as_map",
    "YamlPeg.Props.C35_as_value",
    "YamlPeg.Props.C35_get",
    "YamlPeg.Props.C35_get_ind",
    "YamlPeg.Props.C35_is_null"
   ],
   "note": ""
  },
  {
   "property": "C36",
   "status": "proved",
   "theorems": [
    "YamlPeg.Props.C36_index_key",
    "YamlPeg.Props.C36_index_ind",
    "YamlPeg.Props.C36_get_default"
   ],
   "note": ""
  },
  {
   "property": "C37",
   "status": "proved",
   "theorems": [
    "YamlPeg.Props.C37_tag"
   ],
   "note": ""
  },
  {
   "property": "C38",
   "status": "proved",
   "theorems": [
    "YamlPeg.Props.C38_int_round_trip",
    "YamlPeg.Props.C38_int_out_of_range"
   ],
   "note": ""
  },
  {
   "property": "C39",
   "status": "partial",
   "theorems": [
    "YamlPeg.Props.C39_returns_iff_partial",
    "YamlPeg.Props.C39_counterexample_hang",
    "YamlPeg.Props.C39_counterexample_panic"
   ],
   "note": "The claim is false: dump hangs on some one-line strings and panics on an empty map at the root or in a sequence. Proved: the exact condition under which dump returns (any nodes without anchors; with anchors if all numbers are readable), and that it hangs or panics otherwise."
  },
  {
   "property": "C40",
   "status": "partial",
   "theorems": [
    "YamlPeg.Props.C40_round_trip_partial",
    "YamlPeg.Props.C40_counterexample_keywords",
    "YamlPeg.Props.C40_counterexample_digits",
    "YamlPeg.Props.C40_counterexample_empty_seq",
    "YamlPeg.Props.C40_counterexample_colon",
    "YamlPeg.Props.C40_counterexample_float",
    "YamlPeg.Props.C40_counterexample_value_tag",
    "YamlPeg.Props.C40_counterexample_tag_text",
    "YamlPeg.Props.C40_counterexample_multi_line_key"
   ],
   "note": "Proved for every dumpable node of any depth (non-empty collections, keys that are one-line scalars or collections and differ, strings that are plain lines or newline-terminated text). False outside this class: counterexample theorems for keyword and digit strings, empty sequences, strings with a colon, integral floats."
  },
  {
   "property": "C41",
   "status": "partial",
   "theorems": [
    "YamlPeg.Props.C41_documents_partial",
    "YamlPeg.Props.C41_dump_stable_partial",
    "YamlPeg.Props.C41_counterexample_tag"
   ],
   "note": "Proved for every non-empty list of dumpable nodes; dumping again gives the same text."
  },
  {
   "property": "C42",
   "status": "proved",
   "theorems": [
    "YamlPeg.Props.C42_round_trip_iff",
    "YamlPeg.Props.C42_documents",
    "YamlPeg.Props.C42_counterexample_char",
    "YamlPeg.Props.C42_counterexample_u64",
    "YamlPeg.Props.C42_counterexample_some_unit",
    "YamlPeg.Props.C42_tuple_ignores_rest",
    "YamlPeg.Props.C42_struct_from_sequence"
   ],
   "note": "Exact characterisation for every type of the serde data model (f32 included; borrowed data and Node itself excluded; Node is C45), given the contract of Display for f64. An f32 survives exactly if its text, read as f64 and rounded, is the number again (C69). Counterexamples show each excluded case."
  },
  {
   "property": "C43",
   "status": "partial",
   "theorems": [
    "YamlPeg.Props.C43_fits_partial",
    "YamlPeg.Props.C43_wraps",
    "YamlPeg.Props.C43_counterexample",
    "YamlPeg.Props.C43_counterexample_panic"
   ],
   "note": "FALSE of the code for integers that do not fit: they wrap silently (C43_wraps, C43_counterexample) and numerals outside i64 panic. Proved: exact result when it fits."
  },
  {
   "property": "C44",
   "status": "proved",
   "theorems": [
    "YamlPeg.Props.C44_positions",
    "YamlPeg.Props.C44_top_mismatch",
    "YamlPeg.Props.C44_counterexample_payload",
    "YamlPeg.Props.C44_from_str_ok",
    "YamlPeg.Props.C44_from_str_syntax_error"
   ],
   "note": ""
  },
  {
   "property": "C45",
   "status": "proved",
   "theorems": [
    "YamlPeg.Props.C45_nodes",
    "YamlPeg.Props.C45_counterexample_panic"
   ],
   "note": "For nodes with readable numbers and different keys; others panic (C45_counterexample_panic)."
  },
  {
   "property": "C46",
   "status": "proved",
   "theorems": [
    "YamlPeg.Props.C46_list_view",
    "YamlPeg.Props.C46_read"
   ],
   "note": "The item type's reader on the buffered content (crate serde) is a parameter."
  },
  {
   "property": "C47",
   "status": "proved",
   "theorems": [
    "YamlPeg.Props.C47_callbacks",
    "YamlPeg.Props.C47_read"
   ],
   "note": ""
  },
  {
   "property": "C48",
   "status": "partial",
   "theorems": [
    "YamlPeg.Props.C48_map_seed_partial",
    "YamlPeg.Props.C48_parse_seed_partial",
    "YamlPeg.Props.C48_no_digits",
    "YamlPeg.Props.C48_counterexample_two_notations"
   ],
   "note": "False in general: 16 and 0x10 are equal keys with different hashes (C48_counterexample_two_notations). Proved for every document whose numbers have one notation per value, in particular every document without digits, and for every map whose equal keys hash alike."
  },
  {
   "property": "C49",
   "status": "proved",
   "theorems": [
    "YamlPeg.Props.C49_parse_stable",
    "YamlPeg.Props.C49_parse_cyclic_stable",
    "YamlPeg.Props.C49_dump_stable",
    "YamlPeg.Props.C49_parse_outcome",
    "YamlPeg.Props.C49_parse_cyclic_outcome",
    "YamlPeg.Props.C49_dump_outcome"
   ],
   "note": "parse, parse_cyclic and dump"
  },
  {
   "property": "C50",
   "status": "proved",
   "theorems": [
    "YamlPeg.Props.C50_no_invented_characters",
    "YamlPeg.Props.C50_no_invented_characters_cyclic",
    "YamlPeg.Props.C50_no_replacement_character"
   ],
   "note": "For all valid UTF-8 documents, both modes, all fuel: every string of every node (and every anchor name) is valid UTF-8 over the characters of the document plus ASCII; no U+FFFD unless the document has one."
  },
  {
   "property": "C51",
   "status": "proved",
   "theorems": [
    "YamlPeg.Props.C51_as_anchor",
    "YamlPeg.Props.C51_table"
   ],
   "note": ""
  },
  {
   "property": "C52",
   "status": "proved",
   "theorems": [
    "YamlPeg.Props.C52_layout",
    "YamlPeg.Props.C52_layout_cyclic",
    "YamlPeg.Props.C52_layout_still"
   ],
   "note": ""
  },
  {
   "property": "C53",
   "status": "proved",
   "theorems": [
    "YamlPeg.Props.C53_large_int",
    "YamlPeg.Props.C53_round_trip",
    "YamlPeg.Props.C53_stringify",
    "YamlPeg.Props.C53_counterexample"
   ],
   "note": "The text of an f32 (Display) is a parameter; f32 is modelled exactly (C69). C53_counterexample: an integer that is not printed as written."
  },
  {
   "property": "C54",
   "status": "proved",
   "theorems": [
    "YamlPeg.Props.C54_struct",
    "YamlPeg.Props.C54_missing"
   ],
   "note": ""
  },
  {
   "property": "C55",
   "status": "proved",
   "theorems": [
    "YamlPeg.Props.C55_text_round_trip",
    "YamlPeg.Props.C55_counterexample_tilde",
    "YamlPeg.Props.C55_counterexample_some_null",
    "YamlPeg.Props.C55_counterexample_empty_seq",
    "YamlPeg.Props.C55_counterexample_colon",
    "YamlPeg.Props.C55_counterexample_nan"
   ],
   "note": "For every wf type, surviving and printable value (Val.printable), any platform and seed. Counterexample theorems show that the conditions matter: '~', Some(\"null\"), empty vectors, strings with ': ', NaN."
  },
  {
   "property": "C56",
   "status": "proved",
   "theorems": [
    "YamlPeg.Props.C56_ignores_pos_and_tag"
   ],
   "note": "Successful results agree for every type; error positions may of course differ."
  },
  {
   "property": "C57",
   "status": "proved",
   "theorems": [
    "YamlPeg.Props.C57_plain_root",
    "YamlPeg.Props.C57_plain_value",
    "YamlPeg.Props.C57_plain_item",
    "YamlPeg.Props.C57_single_quoted",
    "YamlPeg.Props.C57_double_quoted",
    "YamlPeg.Props.C57_quoted_anywhere",
    "YamlPeg.Props.C57_two_lines",
    "YamlPeg.Props.C57_counterexample_item",
    "YamlPeg.Props.C57_counterexample_extra_indent",
    "YamlPeg.Props.C57_counterexample_trailing_blanks",
    "YamlPeg.Props.C57_counterexample_backslash",
    "YamlPeg.Props.C57_counterexample_backslash_n",
    "YamlPeg.Props.C57_counterexample_quoted_blanks"
   ],
   "note": "All lists of lines, line breaks, blank and comment lines; root, value and item for plain scalars (and via C52 every layout: Blk.okN/okV leaves include FoldIs), every layout for quoted ones (Writes). Deviations from YAML folding are stated in the property and proved as counterexamples."
  },
  {
   "property": "C58",
   "status": "proved",
   "theorems": [
    "YamlPeg.Props.C58_anchors_round_trip",
    "YamlPeg.Props.C58_tables_come_back",
    "YamlPeg.Props.C58_counterexample_equal_nodes",
    "YamlPeg.Props.C58_counterexample_collection",
    "YamlPeg.Props.C58_counterexample_key",
    "YamlPeg.Props.C58_counterexample_later_root"
   ],
   "note": "Equal nodes, anchored keys, anchored collections as entry values and anchored later roots do not come back: C58_counterexample_*."
  },
  {
   "property": "C59",
   "status": "proved",
   "theorems": [
    "YamlPeg.Props.C59_json",
    "YamlPeg.Props.C59_styles",
    "YamlPeg.Props.C59_counterexample_unicode_escape",
    "YamlPeg.Props.C59_counterexample_fraction_exponent",
    "YamlPeg.Props.C59_counterexample_blank_colon",
    "YamlPeg.Props.C59_counterexample_break_colon",
    "YamlPeg.Props.C59_counterexample_blank_comma",
    "YamlPeg.Props.C59_counterexample_tab"
   ],
   "note": "Outside the stated bounds: C59_counterexample_*."
  },
  {
   "property": "C60",
   "status": "proved",
   "theorems": [
    "YamlPeg.Props.C60_history",
    "YamlPeg.Props.C60_complete",
    "YamlPeg.Props.C60_never_dangling",
    "YamlPeg.Props.C60_set_yaml",
    "YamlPeg.Props.C60_set_repr"
   ],
   "note": "Refinement between the heap with reference counts and the plain values, for every history."
  },
  {
   "property": "C61",
   "status": "proved",
   "theorems": [
    "YamlPeg.Props.C61_strong_count",
    "YamlPeg.Props.C61_clone",
    "YamlPeg.Props.C61_clone_drop"
   ],
   "note": "Count equals holders in every reachable state; clone and drop of a clone."
  },
  {
   "property": "C62",
   "status": "proved",
   "theorems": [
    "YamlPeg.Props.C62_live_iff_reached",
    "YamlPeg.Props.C62_all_freed",
    "YamlPeg.Props.C62_end"
   ],
   "note": "Live iff reachable, for every reachable state; the end of all scopes frees everything."
  },
  {
   "property": "C63",
   "status": "proved",
   "theorems": [
    "YamlPeg.Props.C63_eq",
    "YamlPeg.Props.C63_eq_readable",
    "YamlPeg.Props.C63_clone_equal",
    "YamlPeg.Props.C63_counterexample_shared"
   ],
   "note": "Pointer shortcut of Rc::eq against the structural comparison; the visible difference for unreadable numbers is C63_counterexample_shared."
  },
  {
   "property": "C64",
   "status": "proved",
   "theorems": [
    "YamlPeg.Props.C64_any_key",
    "YamlPeg.Props.C64_explicit_map",
    "YamlPeg.Props.C64_explicit_distinct",
    "YamlPeg.Props.C64_sequence_key",
    "YamlPeg.Props.C64_literal_key",
    "YamlPeg.Props.C64_flow_key",
    "YamlPeg.Props.C64_anchored_key",
    "YamlPeg.Props.C64_alias_key",
    "YamlPeg.Props.C64_counterexample_inline_sequence",
    "YamlPeg.Props.C64_counterexample_inline_map",
    "YamlPeg.Props.C64_counterexample_no_value",
    "YamlPeg.Props.C64_counterexample_alias_blank",
    "YamlPeg.Props.C64_counterexample_flow",
    "YamlPeg.Props.C64_counterexample_tag"
   ],
   "note": "General: C52_layout with Blk.cmap (every layout). C64_any_key, C64_explicit_map, C64_sequence_key, C64_literal_key, C64_flow_key, C64_anchored_key, C64_alias_key are its readable instances; the deviations named in the property are proved as counterexamples."
  },
  {
   "property": "C65",
   "status": "partial",
   "theorems": [
    "YamlPeg.Props.C65_place_partial",
    "YamlPeg.Props.C65_place_without_properties",
    "YamlPeg.Props.C65_counterexample_anchor"
   ],
   "note": "C65_place_partial: all documents in which anchors and tags are followed by a boundary; C65_counterexample_anchor: the full statement is false of the code (for every anchor name and every text behind it that is no boundary)."
  },
  {
   "property": "C66",
   "status": "proved",
   "theorems": [
    "YamlPeg.Props.C66_error_kinds",
    "YamlPeg.Props.C66_plain_text"
   ],
   "note": "The table is ErrorFits (Proof/ErrNames.lean); an example document for each kind."
  },
  {
   "property": "C67",
   "status": "proved",
   "theorems": [
    "YamlPeg.Props.C67_debug_shows_the_data",
    "YamlPeg.Props.C67_same_text_equal",
    "YamlPeg.Props.C67_counterexample_equal",
    "YamlPeg.Props.C67_debug_self_delimiting",
    "YamlPeg.Props.C67_serde_error_text",
    "YamlPeg.Props.C67_parse_error_text",
    "YamlPeg.Props.C67_one_line",
    "YamlPeg.Props.C67_indented_node",
    "YamlPeg.Props.C67_indented_shows_the_data",
    "YamlPeg.Props.C67_indented_errors"
   ],
   "note": "For all nodes with valid UTF-8 texts and every contract-conforming escape table (EscapesWell). C67_counterexample_equal: the converse of C67_same_text_equal is false."
  },
  {
   "property": "C68",
   "status": "proved",
   "theorems": [
    "YamlPeg.Props.C68_atoms",
    "YamlPeg.Props.C68_sequence",
    "YamlPeg.Props.C68_repeated",
    "YamlPeg.Props.C68_map_last_value_wins",
    "YamlPeg.Props.C68_map_order",
    "YamlPeg.Props.C68_every_node",
    "YamlPeg.Props.C68_counterexample_panic"
   ],
   "note": "Keys must be readable and hash alike where they are equal (as in C34); C68_counterexample_panic shows an unreadable key."
  },
  {
   "property": "C69",
   "status": "partial",
   "theorems": [
    "YamlPeg.Props.C69_int",
    "YamlPeg.Props.C69_float_nearest_partial",
    "YamlPeg.Props.C69_survives_partial",
    "YamlPeg.Props.C69_exact_survives",
    "YamlPeg.Props.C69_counterexample_double_rounding"
   ],
   "note": "Proved: integers become the nearest f32; a Float text of any value becomes the f32 nearest to that value, and an f32 whose text is nearest to it (the contract of Display for f32) survives, unless the f64 nearest to the text is exactly in the middle between two neighbouring f32s; exact texts always survive. The full statement is false: C69_counterexample_double_rounding."
  },
  {
   "property": "C70",
   "status": "proved",
   "theorems": [
    "YamlPeg.Props.C70_rejected",
    "YamlPeg.Props.C70_text_behind_document",
    "YamlPeg.Props.C70_text_behind_value",
    "YamlPeg.Props.C70_line_without_colon"
   ],
   "note": "BadText (Props/Broken.lean) is the grammar of the mistakes, Opening what may stand in front; C70_rejected gives kind and place. The mistake is in the first document. An example for each kind."
  },
  {
   "property": "C71",
   "status": "proved",
   "theorems": [
    "YamlPeg.Props.C71_tables_ordered",
    "YamlPeg.Props.C71_insert_ordered",
    "YamlPeg.Props.C71_dump_writes_smallest",
    "YamlPeg.Props.C71_counterexample_renamed"
   ],
   "note": "Every table of every parse; every insertion order; the name in front of every node, at every level."
  },
  {
   "property": "C72",
   "status": "proved",
   "theorems": [
    "YamlPeg.Props.C72_sym",
    "YamlPeg.Props.C72_sym_set",
    "YamlPeg.Props.C72_sym_seq",
    "YamlPeg.Props.C72_ws",
    "YamlPeg.Props.C72_inv",
    "YamlPeg.Props.C72_nl",
    "YamlPeg.Props.C72_comment",
    "YamlPeg.Props.C72_bound",
    "YamlPeg.Props.C72_complex_mapping",
    "YamlPeg.Props.C72_gap"
   ],
   "note": "Exact x L s left (Props/Scan.lean) has both directions: every text of the language is taken, everything else is a mismatch that leaves the state 'left'."
  },
  {
   "property": "C73",
   "status": "proved",
   "theorems": [
    "YamlPeg.Props.C73_identifier",
    "YamlPeg.Props.C73_anchor",
    "YamlPeg.Props.C73_alias",
    "YamlPeg.Props.C73_tag",
    "YamlPeg.Props.C73_unknown_handle",
    "YamlPeg.Props.C73_no_tag"
   ],
   "note": "For tags the two directions and the panic are three theorems: C73_tag, C73_no_tag, C73_unknown_handle."
  },
  {
   "property": "C74",
   "status": "proved",
   "theorems": [
    "YamlPeg.Props.C74_int",
    "YamlPeg.Props.C74_float",
    "YamlPeg.Props.C74_sci_float"
   ],
   "note": "Called as the loader calls them, with the cursor on the mark."
  },
  {
   "property": "C75",
   "status": "proved",
   "theorems": [
    "YamlPeg.Props.C75_ind",
    "YamlPeg.Props.C75_ind_define_root",
    "YamlPeg.Props.C75_ind_define",
    "YamlPeg.Props.C75_chomp"
   ],
   "note": "TableFor says what the table of a level is, entry by entry."
  },
  {
   "property": "C76",
   "status": "proved",
   "theorems": [
    "YamlPeg.Props.C76_begin_anywhere",
    "YamlPeg.Props.C76_begin_anywhere_cyclic"
   ],
   "note": "Both modes; values, anchor tables, errors with their messages, panics and non-termination."
  },
  {
   "property": "C77",
   "status": "proved",
   "theorems": [
    "YamlPeg.Props.C77_lines_in_front",
    "YamlPeg.Props.C77_message",
    "YamlPeg.Props.C77_counterexample_tag",
    "YamlPeg.Props.C77_counterexample_directive"
   ],
   "note": "Both entry points; C77_message tells what becomes of the message; two counterexamples show that the --- is needed."
  },
  {
   "property": "C78",
   "status": "proved",
   "theorems": [
    "YamlPeg.Props.C78_crlf",
    "YamlPeg.Props.C78_crlf_cyclic",
    "YamlPeg.Props.C78_same_line_and_column",
    "YamlPeg.Props.C78_counterexample_blank_line",
    "YamlPeg.Props.C78_counterexample_blank_line_error"
   ],
   "note": "Both entry points; C78_same_line_and_column tells what becomes of line and column; two counterexamples show that the condition on lines of blanks is needed."
  },
  {
   "property": "C79",
   "status": "proved",
   "theorems": [
    "YamlPeg.Props.C79_cr",
    "YamlPeg.Props.C79_cr_cyclic",
    "YamlPeg.Props.C79_counterexample_messages"
   ],
   "note": "Both entry points, no condition but the absence of carriage returns; C79_counterexample_messages: messages put every error in line 1."
  },
  {
   "property": "C80",
   "status": "proved",
   "theorems": [
    "YamlPeg.Props.C80_resolved",
    "YamlPeg.Props.C80_one_resolved_form",
    "YamlPeg.Props.C80_parse_reads",
    "YamlPeg.Props.C80_cyclic_reads",
    "YamlPeg.Props.C80_cyclic_errors",
    "YamlPeg.Props.C80_no_aliases",
    "YamlPeg.Props.C80_counterexample_alias_key",
    "YamlPeg.Props.C80_counterexample_unreadable"
   ],
   "note": "For all texts, seeds and fuels. Resolved is a relation (Spec/Resolve.lean), shown to be functional (C80_one_resolved_form). The two exceptions (an undefined name, an unreadable integer) and the side condition (no alias inside a key) are needed: counterexamples are proved."
  },
  {
   "property": "C81",
   "status": "proved",
   "theorems": [
    "YamlPeg.Props.C81_in_order",
    "YamlPeg.Props.C81_parse_without_aliases",
    "YamlPeg.Props.C81_counterexample_alias",
    "YamlPeg.Props.C81_counterexample_keys"
   ],
   "note": "for parse_cyclic; for parse only without aliases (counterexample proved); keys among each other are not ordered (counterexample proved)"
  },
  {
   "property": "C82",
   "status": "proved",
   "theorems": [
    "YamlPeg.Props.C82_linear",
    "YamlPeg.Props.C82_parse_without_aliases",
    "YamlPeg.Props.C82_counterexample_aliases"
   ],
   "note": "for parse_cyclic; for parse only without aliases (an exponential family is proved)"
  },
  {
   "property": "C83",
   "status": "proved",
   "theorems": [
    "YamlPeg.Props.C83_positions",
    "YamlPeg.Props.C83_none",
    "YamlPeg.Props.C83_one_by_one",
    "YamlPeg.Props.C83_dumper",
    "YamlPeg.Props.C83_ends_with_newline"
   ],
   "note": "every fuel, so failures included; one by one and final line break on both platforms"
  },
  {
   "property": "C84",
   "status": "proved",
   "theorems": [
    "YamlPeg.Props.C84_windows",
    "YamlPeg.Props.C84_reads_alike",
    "YamlPeg.Props.C84_counterexample_one_line"
   ],
   "note": "dumper compiled with cfg!(windows) against the one without; the excluded one-line strings are shown to differ (counterexample proved)"
  },
  {
   "property": "C85",
   "status": "proved",
   "theorems": [
    "YamlPeg.Props.C85_written",
    "YamlPeg.Props.C85_clear",
    "YamlPeg.Props.C85_parse_without_aliases"
   ],
   "note": "every fuel, both entry points (parse without the byte *); strings by their length, as folding and escapes change their text"
  },
  {
   "property": "C86",
   "status": "proved",
   "theorems": [
    "YamlPeg.Props.C86_amount",
    "YamlPeg.Props.C86_ascii",
    "YamlPeg.Props.C86_parse_without_aliases",
    "YamlPeg.Props.C86_node",
    "YamlPeg.Props.C86_counterexample_aliases",
    "YamlPeg.Props.C86_counterexample_not_utf8"
   ],
   "note": "every fuel, both entry points (parse without the byte *); counterexample for aliases in parse proved"
  }
 ]
}