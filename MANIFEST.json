{
 "claims": [
  {
   "property": "C01",
   "status": "proved",
   "theorems": [
    "Takenoco.C01_flatGroup_matched",
    "Takenoco.C01_flatGroup_unmatched",
    "Takenoco.C01_flatGroup_unmatched_ctx",
    "Takenoco.C01_flatGroup_other"
   ],
   "note": "Over arbitrary children; iff for matched, unmatched and all other outcomes."
  },
  {
   "property": "C02",
   "status": "proved",
   "theorems": [
    "Takenoco.C02_first_matched",
    "Takenoco.C02_first_unmatched",
    "Takenoco.C02_first_unmatched_ctx",
    "Takenoco.C02_first_empty"
   ],
   "note": "Over arbitrary alternatives; First() with no alternative matches (C02_first_empty)."
  },
  {
   "property": "C03",
   "status": "proved",
   "theorems": [
    "Takenoco.C03_errors_propagate"
   ],
   "note": "Any nesting of the base combinators, via the relation Reaches."
  },
  {
   "property": "C04",
   "status": "proved",
   "theorems": [
    "Takenoco.C04_repeat_matched",
    "Takenoco.C04_repeat_maximal",
    "Takenoco.C04_repeat_unmatched",
    "Takenoco.C04_maximal_unique",
    "Takenoco.C04_instances"
   ],
   "note": "Over arbitrary children; fuel is needed only for Max<0 (see C13 for termination)."
  },
  {
   "property": "C05",
   "status": "proved",
   "theorems": [
    "Takenoco.C05_lookAhead",
    "Takenoco.C05_lookAheadN"
   ],
   "note": ""
  },
  {
   "property": "C06",
   "status": "proved",
   "theorems": [
    "Takenoco.C06_lookBehind",
    "Takenoco.C06_lookBehindN",
    "Takenoco.C06_lookBehind_general"
   ],
   "note": "The iff is for children that neither fail nor panic nor diverge in the range; C06_lookBehind_general covers the rest."
  },
  {
   "property": "C07",
   "status": "proved",
   "theorems": [
    "Takenoco.C07_stack_discipline",
    "Takenoco.C07_match_consumes"
   ],
   "note": "Every grammar without Match, recursion through Indirect included; C07_match_consumes shows why Match is excepted."
  },
  {
   "property": "C08",
   "status": "proved",
   "theorems": [
    "Takenoco.C08_string_position",
    "Takenoco.C08_slice_position"
   ],
   "note": "String and slice sources; Match allowed, transformers arbitrary."
  },
  {
   "property": "C09",
   "status": "proved",
   "theorems": [
    "Takenoco.C09_never_panics",
    "Takenoco.C09_negative_distance_panics",
    "Takenoco.C09_parseUint_panics",
    "Takenoco.C09_extra"
   ],
   "note": "Look-behind distances not negative, transformers from SafeTr; witnesses show that both conditions are needed."
  },
  {
   "property": "C10",
   "status": "proved",
   "theorems": [
    "Takenoco.C10_source_and_tag"
   ],
   "note": "All results, matched or not."
  },
  {
   "property": "C11",
   "status": "proved",
   "theorems": [
    "Takenoco.C11_error_status"
   ],
   "note": "Arbitrary callbacks and transformers."
  },
  {
   "property": "C12",
   "status": "proved",
   "theorems": [
    "Takenoco.C12_fuel_independent",
    "Takenoco.C12_more_fuel",
    "Takenoco.C12_transformer_fuel_independent",
    "Takenoco.C12_spec_to_engine",
    "Takenoco.C12_engine_to_spec",
    "Takenoco.C12_spec_deterministic",
    "Takenoco.C12_divergence",
    "Takenoco.C12_meaning_solves",
    "Takenoco.C12_meaning_least"
   ],
   "note": "Fuel independence and least solution of the combinator equations for all grammars; big-step specification agrees in both directions (engine to spec: grammars without ProductionRule and direct BaseParser calls)."
  },
  {
   "property": "C13",
   "status": "proved",
   "theorems": [
    "Takenoco.C13_repeat_terminates",
    "Takenoco.C13_repeat_fuel_irrelevant",
    "Takenoco.C13_repeat_diverges",
    "Takenoco.C13_star_zero_diverges",
    "Takenoco.C13_star_lookAheadN_end_diverges"
   ],
   "note": "Non-termination is \"times out for every fuel\"."
  },
  {
   "property": "C14",
   "status": "proved",
   "theorems": [
    "Takenoco.C14_trans_matched",
    "Takenoco.C14_trans_unmatched",
    "Takenoco.C14_trans_transformer_error"
   ],
   "note": "For children that keep the older stack (every library grammar does: C07)."
  },
  {
   "property": "C15",
   "status": "proved",
   "theorems": [
    "Takenoco.C15_erase",
    "Takenoco.C15_group",
    "Takenoco.C15_group_flatGroup",
    "Takenoco.C15_class_name_false",
    "Takenoco.C15_group_grammar",
    "Takenoco.C15_erase_grammar"
   ],
   "note": "for children that do not look at the class name, which is every parser built from the library (C15_group_grammar, C15_erase_grammar); a hand-written child can look at it (C15_class_name_false)"
  },
  {
   "property": "C16",
   "status": "proved",
   "theorems": [
    "Takenoco.C16_seq_matches",
    "Takenoco.C16_seq_unmatched",
    "Takenoco.C16_seq_iff",
    "Takenoco.C16_charClass_matches",
    "Takenoco.C16_charClass_unmatched"
   ],
   "note": "Positions within the source; literals are arbitrary byte strings."
  },
  {
   "property": "C17",
   "status": "proved",
   "theorems": [
    "Takenoco.C17_charRange",
    "Takenoco.C17_charRangeN",
    "Takenoco.C17_charClassN",
    "Takenoco.C17_complement",
    "Takenoco.C17_at_end"
   ],
   "note": "Characters are read as by NextChar (a malformed byte counts as U+FFFD)."
  },
  {
   "property": "C18",
   "status": "proved",
   "theorems": [
    "Takenoco.C18_any",
    "Takenoco.C18_whitespace",
    "Takenoco.C18_whitespaceNoLineBreak",
    "Takenoco.C18_lineBreak",
    "Takenoco.C18_alpha",
    "Takenoco.C18_number",
    "Takenoco.C18_alnum",
    "Takenoco.C18_binNumber",
    "Takenoco.C18_octNumber",
    "Takenoco.C18_hexNumber",
    "Takenoco.C18_charClassFn",
    "Takenoco.C18_end",
    "Takenoco.C18_whitespace_partition",
    "Takenoco.C18_alnum_union"
   ],
   "note": "Each set is stated with character literals; also End, Any, CharClassFn."
  },
  {
   "property": "C19",
   "status": "proved",
   "theorems": [
    "Takenoco.C19_next_unique",
    "Takenoco.C19_decode",
    "Takenoco.C19_width",
    "Takenoco.C19_decode_encode",
    "Takenoco.C19_encode",
    "Takenoco.C19_encode_decode"
   ],
   "note": "Against the UTF-8 encoder of Lean core."
  },
  {
   "property": "C20",
   "status": "proved",
   "theorems": [
    "Takenoco.C20_reads",
    "Takenoco.C20_total",
    "Takenoco.C20_lossless",
    "Takenoco.C20_reads_unique"
   ],
   "note": ""
  },
  {
   "property": "C21",
   "status": "partial",
   "theorems": [
    "Takenoco.C21_position_partial",
    "Takenoco.C21_length_false"
   ],
   "note": "Class, type, value and position are proved; the length claim is false (C21_length_false: the pushed Length is that of the previous token)."
  },
  {
   "property": "C22",
   "status": "partial",
   "theorems": [
    "Takenoco.C22_wordBoundary_partial",
    "Takenoco.C22_unicodeWordBoundary_partial",
    "Takenoco.C22_wordBoundary_exact",
    "Takenoco.C22_wordBoundary_false"
   ],
   "note": "Exact on well-formed text without characters whose lead byte is f1, f2 or f4; false in general (C22_wordBoundary_false), exact behaviour in C22_wordBoundary_exact."
  },
  {
   "property": "C23",
   "status": "proved",
   "theorems": [
    "Takenoco.C23_concat",
    "Takenoco.C23_concat_fails",
    "Takenoco.C23_trim",
    "Takenoco.C23_trimStart",
    "Takenoco.C23_trimEnd",
    "Takenoco.C23_trimmedStart_unique",
    "Takenoco.C23_trim_fails",
    "Takenoco.C23_trim_idempotent"
   ],
   "note": "Type tags \"string\" must go with string values (library parsers guarantee it)."
  },
  {
   "property": "C24",
   "status": "partial",
   "theorems": [
    "Takenoco.C24_parseInt_accepts",
    "Takenoco.C24_parseInt_rejects",
    "Takenoco.C24_parseUint_accepts",
    "Takenoco.C24_parseUint_rejects_partial",
    "Takenoco.C24_parseUint_panics",
    "Takenoco.C24_parseInt_decimal",
    "Takenoco.C24_parseUint_decimal"
   ],
   "note": "Acceptance, value and rejection exact for radices 2..36 and all strings; \"never panic\" is false: ParseUint panics on the empty string (C24_parseUint_panics)."
  },
  {
   "property": "C25",
   "status": "partial",
   "theorems": [
    "Takenoco.C25_int_rune_int",
    "Takenoco.C25_stringFromInt",
    "Takenoco.C25_stringFromRune",
    "Takenoco.C25_stringFromInt_partial",
    "Takenoco.C25_stringFromInt_exact",
    "Takenoco.C25_stringFromInt_false"
   ],
   "note": "Round trip and the composition law hold; \"U+FFFD for anything else\" holds on the int32 range only (C25_stringFromInt_false); exact behaviour in C25_stringFromInt_exact."
  },
  {
   "property": "C26",
   "status": "proved",
   "theorems": [
    "Takenoco.C26_setOpCode",
    "Takenoco.C26_changeClassName",
    "Takenoco.C26_setOpCodeAndClassName",
    "Takenoco.C26_setValue"
   ],
   "note": ""
  },
  {
   "property": "C27",
   "status": "partial",
   "theorems": [
    "Takenoco.C27_push_partial",
    "Takenoco.C27_prepend_partial",
    "Takenoco.C27_push_first",
    "Takenoco.C27_pop_push",
    "Takenoco.C27_pop",
    "Takenoco.C27_push_history",
    "Takenoco.C27_prepend_history"
   ],
   "note": "Contents for every call history are proved; independence of history is false for the source position on empty input (C27_push_history, C27_prepend_history)."
  },
  {
   "property": "C28",
   "status": "partial",
   "theorems": [
    "Takenoco.C28_exchange_partial",
    "Takenoco.C28_exchange_panics",
    "Takenoco.C28_roll_partial",
    "Takenoco.C28_roll_identity",
    "Takenoco.C28_roll_false"
   ],
   "note": "False of the code: Exchange panics on every list with two or more ASTs, Roll is the identity; both proved."
  },
  {
   "property": "C29",
   "status": "proved",
   "theorems": [
    "Takenoco.C29_any",
    "Takenoco.C29_end",
    "Takenoco.C29_objClass",
    "Takenoco.C29_objClassN",
    "Takenoco.C29_objClassFn"
   ],
   "note": ""
  },
  {
   "property": "C30",
   "status": "partial",
   "theorems": [
    "Takenoco.C30_seq_partial",
    "Takenoco.C30_seq_exact",
    "Takenoco.C30_seq_false"
   ],
   "note": "object Seq matches regardless of equality of the items: refuted, exact behaviour proved"
  },
  {
   "property": "C31",
   "status": "partial",
   "theorems": [
    "Takenoco.C31_itemEquals",
    "Takenoco.C31_ignores",
    "Takenoco.C31_symm",
    "Takenoco.C31_trans",
    "Takenoco.C31_refl_partial",
    "Takenoco.C31_nan_false",
    "Takenoco.C31_untyped_panics"
   ],
   "note": "not reflexive for NaN and function values (witness); symmetric, transitive, and holds iff class, type and value agree recursively: proved"
  },
  {
   "property": "C32",
   "status": "proved",
   "theorems": [
    "Takenoco.C32_toSlice",
    "Takenoco.C32_toSlice_panics",
    "Takenoco.C32_asts"
   ],
   "note": ""
  },
  {
   "property": "C33",
   "status": "proved",
   "theorems": [
    "Takenoco.C33_match_takes",
    "Takenoco.C33_match_fails",
    "Takenoco.C33_match_none",
    "Takenoco.C33_match_panics",
    "Takenoco.C33_topIs"
   ],
   "note": ""
  },
  {
   "property": "C34",
   "status": "proved",
   "theorems": [
    "Takenoco.C34_production",
    "Takenoco.C34_grammar",
    "Takenoco.C34_panics",
    "Takenoco.C34_checked",
    "Takenoco.C34_idle",
    "Takenoco.C34_terminates",
    "Takenoco.C34_shortens",
    "Takenoco.C34_diverges"
   ],
   "note": ""
  },
  {
   "property": "C35",
   "status": "proved",
   "theorems": [
    "Takenoco.C35_precedence"
   ],
   "note": ""
  },
  {
   "property": "C36",
   "status": "proved",
   "theorems": [
    "Takenoco.C36_parse",
    "Takenoco.C36_written"
   ],
   "note": ""
  },
  {
   "property": "C37",
   "status": "proved",
   "theorems": [
    "Takenoco.C37_rules",
    "Takenoco.C37_parse"
   ],
   "note": ""
  },
  {
   "property": "C38",
   "status": "proved",
   "theorems": [
    "Takenoco.C38_parse",
    "Takenoco.C38_round_trip",
    "Takenoco.C38_quotes_lost",
    "Takenoco.C38_blanks_lost"
   ],
   "note": ""
  },
  {
   "property": "C39",
   "status": "proved",
   "theorems": [
    "Takenoco.C39_csv_total"
   ],
   "note": ""
  },
  {
   "property": "C40",
   "status": "proved",
   "theorems": [
    "Takenoco.C40_position",
    "Takenoco.C40_rest_exists",
    "Takenoco.C40_lines_exist",
    "Takenoco.C40_panics"
   ],
   "note": ""
  },
  {
   "property": "C41",
   "status": "proved",
   "theorems": [
    "Takenoco.C41_recording",
    "Takenoco.C41_traverse",
    "Takenoco.C41_walk",
    "Takenoco.C41_same",
    "Takenoco.C41_lazy"
   ],
   "note": ""
  },
  {
   "property": "C42",
   "status": "proved",
   "theorems": [
    "Takenoco.C42_traverse"
   ],
   "note": ""
  },
  {
   "property": "C43",
   "status": "proved",
   "theorems": [
    "Takenoco.C43_transparent",
    "Takenoco.C43_build",
    "Takenoco.C43_built",
    "Takenoco.C43_balanced",
    "Takenoco.C43_panic",
    "Takenoco.C43_events"
   ],
   "note": "for every grammar and every placement of wrapped parsers; the tracer callbacks are assumed not to modify the context, not to panic and not to build parsers. DebugTrace itself is a FlatGroup with another class name."
  },
  {
   "property": "C44",
   "status": "proved",
   "theorems": [
    "Takenoco.C44_restores",
    "Takenoco.C44_later",
    "Takenoco.C44_marks",
    "Takenoco.C44_scope",
    "Takenoco.C44_silent",
    "Takenoco.C44_interleaved_false"
   ],
   "note": "for DebugTrace(scope, pt)(children...) evaluated as one expression; C44_interleaved_false shows what happens when the two steps are not nested"
  },
  {
   "property": "C45",
   "status": "proved",
   "theorems": [
    "Takenoco.C45_simulates",
    "Takenoco.C45_saved",
    "Takenoco.C45_rewind",
    "Takenoco.C45_text",
    "Takenoco.C45_growth",
    "Takenoco.C45_from",
    "Takenoco.C45_library",
    "Takenoco.C45_csv",
    "Takenoco.C45_formula",
    "Takenoco.C45_match_false",
    "Takenoco.C45_callback_false"
   ],
   "note": "for grammars without Match whose terminals only push and whose BaseParser callbacks keep what is below bottomOfAst (and only push when they reject a round); Match breaks it (C45_match_false), and so does a callback that replaces earlier rounds (C45_callback_false). Slices stored inside Ast values are not windows on memory in the model."
  },
  {
   "property": "C46",
   "status": "proved",
   "theorems": [
    "Takenoco.C46_binary",
    "Takenoco.C46_octal",
    "Takenoco.C46_hex",
    "Takenoco.C46_integer"
   ],
   "note": ""
  },
  {
   "property": "C47",
   "status": "proved",
   "theorems": [
    "Takenoco.C47_identifier"
   ],
   "note": ""
  },
  {
   "property": "C48",
   "status": "proved",
   "theorems": [
    "Takenoco.C48_time",
    "Takenoco.C48_time_complete",
    "Takenoco.C48_clock_form",
    "Takenoco.C48_dateTime",
    "Takenoco.C48_dateTime_matched",
    "Takenoco.C48_zone_form",
    "Takenoco.C48_date"
   ],
   "note": ""
  },
  {
   "property": "C49",
   "status": "partial",
   "theorems": [
    "Takenoco.C49_unwritten",
    "Takenoco.C49_read_back_partial",
    "Takenoco.C49_wrong_getter",
    "Takenoco.C49_other_keys",
    "Takenoco.C49_index",
    "Takenoco.C49_reads",
    "Takenoco.C49_false",
    "Takenoco.C49_typed_getters_false"
   ],
   "note": "False as stated for nil (C49_false): SetAny(nil) deletes the key, a later GetAny panics; for a map[string]interface{} the typed getters panic or return a description of the type (C49_typed_getters_false). Proved for every value other than nil (C49_read_back_partial), all histories, all boxes on the map."
  },
  {
   "property": "C50",
   "status": "proved",
   "theorems": [
    "Takenoco.C50_formula_total"
   ],
   "note": ""
  },
  {
   "property": "C51",
   "status": "partial",
   "theorems": [
    "Takenoco.C51_round_partial",
    "Takenoco.C51_final_loses_error",
    "Takenoco.C51_false"
   ],
   "note": "False as stated (C51_false): the error of the final call of the callback is dropped, only the status Error is kept (C51_final_loses_error). Proved for a failure in a round (C51_round_partial)."
  },
  {
   "property": "C52",
   "status": "proved",
   "theorems": [
    "Takenoco.C52_seqI_matches",
    "Takenoco.C52_seqI_unmatched",
    "Takenoco.C52_ascii",
    "Takenoco.C52_refl"
   ],
   "note": "Folding is given by an arbitrary orbit function."
  },
  {
   "property": "C53",
   "status": "proved",
   "theorems": [
    "Takenoco.C53_integer_numeric",
    "Takenoco.C53_float_numeric",
    "Takenoco.C53_float_form"
   ],
   "note": ""
  },
  {
   "property": "C54",
   "status": "proved",
   "theorems": [
    "Takenoco.C54_terminates",
    "Takenoco.C54_moves",
    "Takenoco.C54_string_terminal",
    "Takenoco.C54_string_eater",
    "Takenoco.C54_object_eater",
    "Takenoco.C54_object_terminal",
    "Takenoco.C54_left_recursion_diverges"
   ],
   "note": ""
  },
  {
   "property": "C55",
   "status": "proved",
   "theorems": [
    "Takenoco.C55_torpn_total"
   ],
   "note": ""
  },
  {
   "property": "C56",
   "status": "proved",
   "theorems": [
    "Takenoco.C56_same_end",
    "Takenoco.C56_standalone",
    "Takenoco.C56_sequence",
    "Takenoco.C56_match",
    "Takenoco.C56_match_false"
   ],
   "note": "Match is covered for equal stacks only, and is a real exception otherwise (C56_match_false); user parsers, callbacks and transformers are assumed to have the property themselves; the stateful Prepend and Push are not covered"
  },
  {
   "property": "C57",
   "status": "proved",
   "theorems": [
    "Takenoco.C57_flatGroup_one",
    "Takenoco.C57_flatGroup_flatten",
    "Takenoco.C57_first_one",
    "Takenoco.C57_first_flatten",
    "Takenoco.C57_first_again",
    "Takenoco.C57_first_factor",
    "Takenoco.C57_lookAheadN_twice",
    "Takenoco.C57_lookAhead_twice",
    "Takenoco.C57_lookAhead_same",
    "Takenoco.C57_lookAheadN_never",
    "Takenoco.C57_lookAheadN_first",
    "Takenoco.C57_repeat_some",
    "Takenoco.C57_repeat_none",
    "Takenoco.C57_repeat_zero",
    "Takenoco.C57_trans_trans",
    "Takenoco.C57_trans_nil",
    "Takenoco.C57_replace",
    "Takenoco.C57_equivalence",
    "Takenoco.C57_once",
    "Takenoco.C57_oneOrMore",
    "Takenoco.C57_zeroOrMore",
    "Takenoco.C57_zeroOrOnce",
    "Takenoco.C57_right_factor_false",
    "Takenoco.C57_first_swap_false",
    "Takenoco.C57_definition_false"
   ],
   "note": "replacing is proved for one occurrence under all combinators (not inside a direct BaseParser call or a production rule); what does not hold: factoring out a common end, swapping alternatives, and replacing the definition of a recursive name (C57_right_factor_false, C57_first_swap_false, C57_definition_false)"
  },
  {
   "property": "C58",
   "status": "proved",
   "theorems": [
    "Takenoco.C58_calendar",
    "Takenoco.C58_date",
    "Takenoco.C58_date_year",
    "Takenoco.C58_time",
    "Takenoco.C58_dateTime",
    "Takenoco.C58_panics",
    "Takenoco.C58_dateTime_parser",
    "Takenoco.C58_date_parser",
    "Takenoco.C58_time_parser"
   ],
   "note": "Go's time.Parse, time.Date and UTC are modelled from the Go sources (not part of the repository), for the two layouts used; ParseDateTime and ParseTime are characterised on the normal forms the literal parsers yield, ParseDate on all strings"
  },
  {
   "property": "C59",
   "status": "proved",
   "theorems": [
    "Takenoco.C59_marshal",
    "Takenoco.C59_table_unique",
    "Takenoco.C59_order",
    "Takenoco.C59_not_structs",
    "Takenoco.C59_missing_column_false",
    "Takenoco.C59_no_columns_panics"
   ],
   "note": "package reflect is modelled as far as used (field list with name, tag, kind, exportedness); FormatFloat is a parameter; field names are distinct; what goes wrong otherwise is C59_missing_column_false and C59_no_columns_panics"
  },
  {
   "property": "C60",
   "status": "proved",
   "theorems": [
    "Takenoco.C60_unmarshal",
    "Takenoco.C60_otherwise",
    "Takenoco.C60_unreadable",
    "Takenoco.C60_short_row_panics",
    "Takenoco.C60_unexported_panics",
    "Takenoco.C60_no_rows",
    "Takenoco.C60_parse_error",
    "Takenoco.C60_target",
    "Takenoco.C60_overflow"
   ],
   "note": "package reflect is modelled as far as used; ParseFloat and the conversion to float32 are parameters; field names are distinct, integer kinds have 1 to 64 bits"
  },
  {
   "property": "C61",
   "status": "proved",
   "theorems": [
    "Takenoco.C61_round_trip"
   ],
   "note": "that the text of a float denotes it is a hypothesis on the formatter and parser given"
  },
  {
   "property": "C62",
   "status": "proved",
   "theorems": [
    "Takenoco.C62_identifier",
    "Takenoco.C62_cases",
    "Takenoco.C62_text"
   ],
   "note": ""
  },
  {
   "property": "C63",
   "status": "partial",
   "theorems": [
    "Takenoco.C63_no_boundary_partial",
    "Takenoco.C63_dollar_not_word",
    "Takenoco.C63_dollar_false"
   ],
   "note": "False next to a $: isUnicodeWord excludes it again, as the standard reserves it for syntax (C63_dollar_false). Proved for places without $ on either side, after a character that the step backwards finds (C22)."
  },
  {
   "property": "C64",
   "status": "proved",
   "theorems": [
    "Takenoco.C64_ends",
    "Takenoco.C64_value",
    "Takenoco.C64_panic",
    "Takenoco.C64_error",
    "Takenoco.C64_unambiguous"
   ],
   "note": "a panic on a text that spells no expression as a whole is possible when a parenthesised part divides by zero; C64_panic says so"
  },
  {
   "property": "C65",
   "status": "proved",
   "theorems": [
    "Takenoco.C65_ends",
    "Takenoco.C65_value",
    "Takenoco.C65_error"
   ],
   "note": ""
  },
  {
   "property": "C66",
   "status": "proved",
   "theorems": [
    "Takenoco.C66_numbers",
    "Takenoco.C66_distinct"
   ],
   "note": "one goroutine; building order is Go's order of evaluation"
  },
  {
   "property": "C67",
   "status": "proved",
   "theorems": [
    "Takenoco.C67_ends",
    "Takenoco.C67_value",
    "Takenoco.C67_error",
    "Takenoco.C67_unambiguous"
   ],
   "note": "Both directions, for all byte strings; the text is read with the decoding of C20. Fuel: from some fuel on."
  },
  {
   "property": "C68",
   "status": "proved",
   "theorems": [
    "Takenoco.C68_allowed",
    "Takenoco.C68_string",
    "Takenoco.C68_typed",
    "Takenoco.C68_read_back",
    "Takenoco.C68_unchanged",
    "Takenoco.C68_reads",
    "Takenoco.C68_fits",
    "Takenoco.C68_elements",
    "Takenoco.C68_map_copy",
    "Takenoco.C68_mapIndex",
    "Takenoco.C68_set_nil"
   ],
   "note": "Over the types listed in Model/ReflectBox (no structs, pointers, defined types); reflect as documented for Go 1.17."
  },
  {
   "property": "C69",
   "status": "proved",
   "theorems": [
    "Takenoco.C69_get",
    "Takenoco.C69_len",
    "Takenoco.C69_set",
    "Takenoco.C69_set_panics",
    "Takenoco.C69_reslice",
    "Takenoco.C69_make",
    "Takenoco.C69_copy",
    "Takenoco.C69_history",
    "Takenoco.C69_beyond_length"
   ],
   "note": "For all memories, slices, bounds and sequences of calls. Reslice and Copy accept ends up to the capacity, beyond the length (C69_beyond_length)."
  },
  {
   "property": "C70",
   "status": "proved",
   "theorems": [
    "Takenoco.C70_parseInt",
    "Takenoco.C70_parseUint",
    "Takenoco.C70_unambiguous",
    "Takenoco.C70_other_radix"
   ],
   "note": "For all token lists and byte strings. strconv is modelled after its source (Model/Strconv), not part of the repository."
  },
  {
   "property": "C71",
   "status": "proved",
   "theorems": [
    "Takenoco.C71_whitespace",
    "Takenoco.C71_noLineBreak",
    "Takenoco.C71_lineBreak",
    "Takenoco.C71_complements"
   ],
   "note": "For all byte strings and positions."
  },
  {
   "property": "C72",
   "status": "proved",
   "theorems": [
    "Takenoco.C72_formula",
    "Takenoco.C72_torpn"
   ],
   "note": "For all byte strings. That the failure without a cause always points at line 1, column 1 is what the code does: the parsers that do not match report no position."
  },
  {
   "property": "C73",
   "status": "proved",
   "theorems": [
    "Takenoco.C73_not_table",
    "Takenoco.C73_report",
    "Takenoco.C73_eof",
    "Takenoco.C73_junk"
   ],
   "note": "For all byte strings. A failure without a cause always points at line 1, column 1, which is what the code does."
  },
  {
   "property": "C74",
   "status": "proved",
   "theorems": [
    "Takenoco.C74_engine_to_peg",
    "Takenoco.C74_peg_to_engine",
    "Takenoco.C74_matches",
    "Takenoco.C74_unmatched",
    "Takenoco.C74_diverges",
    "Takenoco.C74_abc"
   ],
   "note": "For all grammars that Spec.Means relates to a parsing expression. Look-behind, word boundaries and errors have no counterpart in parsing expression grammars and are left out; C12 covers them."
  },
  {
   "property": "C75",
   "status": "proved",
   "theorems": [
    "Takenoco.C75_word",
    "Takenoco.C75_language",
    "Takenoco.C75_brackets",
    "Takenoco.C75_order_matters"
   ],
   "note": "For all grammars that Spec.Means relates to an expression without look-ahead that satisfies Spec.LL1. FIRST and nullable are the semantic ones, read off the generated words."
  },
  {
   "property": "C76",
   "status": "proved",
   "theorems": [
    "Takenoco.C76_words",
    "Takenoco.C76_others"
   ],
   "note": "For all byte strings; the Go code in the document is modelled like the code of the examples."
  },
  {
   "property": "C77",
   "status": "proved",
   "theorems": [
    "Takenoco.C77_error",
    "Takenoco.C77_unmatched",
    "Takenoco.C77_zero",
    "Takenoco.C77_start",
    "Takenoco.C77_if",
    "Takenoco.C77_indirect"
   ],
   "note": "For all contexts."
  },
  {
   "property": "C78",
   "status": "partial",
   "theorems": [
    "Takenoco.C78_sound",
    "Takenoco.C78_complete_partial",
    "Takenoco.C78_flat_partial",
    "Takenoco.C78_signs_lost"
   ],
   "note": "Soundness for all byte strings. Completeness is false of the code when a minus sign stands before a group (C78_signs_lost); it is proved for all other texts that formula.Parse accepts."
  },
  {
   "property": "C79",
   "status": "proved",
   "theorems": [
    "Takenoco.C79_anywhere",
    "Takenoco.C79_library",
    "Takenoco.Formula.C79_formula",
    "Takenoco.C79_start",
    "Takenoco.C79_word",
    "Takenoco.C79_behind"
   ],
   "note": "For all grammars without Start, look-behind and Match; word boundaries after a clean cut. ToSlice is excluded. C79_start, C79_word and C79_behind show why what looks back is left out."
  },
  {
   "property": "C80",
   "status": "proved",
   "theorems": [
    "Takenoco.C80_traverse",
    "Takenoco.C80_reached",
    "Takenoco.C80_deterministic",
    "Takenoco.C80_rewrite",
    "Takenoco.C80_jump_panics",
    "Takenoco.C80_forever"
   ],
   "note": "For all callbacks and trees. Callbacks that never return are modelled as timeouts; then no rule applies."
  },
  {
   "property": "C81",
   "status": "proved",
   "theorems": [
    "Takenoco.C81_main",
    "Takenoco.C81_main_any",
    "Takenoco.C81_csv",
    "Takenoco.C81_tinygo",
    "Takenoco.C81_csv_silent",
    "Takenoco.C81_formula",
    "Takenoco.C81_formula_exact",
    "Takenoco.C81_formula_rounds",
    "Takenoco.C81_formula_silent",
    "Takenoco.C81_formula_nearest"
   ],
   "note": "For all texts, on top of C64 and C67. What the programs print to the standard error output, the formatting of slices by package fmt and the conversion of numbers and strings by syscall/js are modelled by their documentation."
  },
  {
   "property": "C82",
   "status": "proved",
   "theorems": [
    "Takenoco.C82_simulates",
    "Takenoco.C82_text",
    "Takenoco.C82_rewind",
    "Takenoco.C82_below",
    "Takenoco.C82_matchFree",
    "Takenoco.C82_operators",
    "Takenoco.C82_alternatives",
    "Takenoco.C82_rounds_false",
    "Takenoco.C82_shrinking_false"
   ],
   "note": "For the grammars described by Spec.MatchSafe; C82_rounds_false and C82_shrinking_false show that the conditions on loops are needed, C45_match_false that a Match may not be followed by something that can fail."
  },
  {
   "property": "C83",
   "status": "proved",
   "theorems": [
    "Takenoco.C83_writes",
    "Takenoco.C83_parse",
    "Takenoco.C83_results",
    "Takenoco.C83_same_context_false"
   ],
   "note": "For all grammars. Transformers and callbacks are functions of the values they see: a callback that writes to the slice it is given is outside the model."
  },
  {
   "property": "C84",
   "status": "partial",
   "theorems": [
    "Takenoco.C84_decimal",
    "Takenoco.C84_unique",
    "Takenoco.C84_syntax",
    "Takenoco.C84_special",
    "Takenoco.C84_transformer",
    "Takenoco.C84_literals_partial",
    "Takenoco.C84_point_false",
    "Takenoco.C84_digits_false"
   ],
   "note": "The property is false of the code in two places, C84_point_false and C84_digits_false. C84_literals_partial states exactly what happens otherwise, for all texts; C84_decimal and C84_syntax do the same for ParseFloat alone. strconv.ParseFloat is modelled by its syntax (readFloat) and one correctly rounding function for the several algorithms of the Go library."
  },
  {
   "property": "C85",
   "status": "proved",
   "theorems": [
    "Takenoco.C85_parseInt",
    "Takenoco.C85_parseUint",
    "Takenoco.C85_large",
    "Takenoco.C85_radix"
   ],
   "note": "For all texts. For radix 0 see C70, which leaves the kind of the error open."
  },
  {
   "property": "C86",
   "status": "proved",
   "theorems": [
    "Takenoco.C86_calls",
    "Takenoco.C86_polynomial",
    "Takenoco.C86_terminal",
    "Takenoco.C86_eater",
    "Takenoco.C86_exponential"
   ],
   "note": "Calls are counted in the traced engine (C43). Transformers in the judgement are plain functions: ProductionRule is not included."
  },
  {
   "property": "C87",
   "status": "proved",
   "theorems": [
    "Takenoco.C87_csv",
    "Takenoco.C87_line"
   ],
   "note": "Calls are counted by Before events of the traced engine; the time spent inside one parser call (copying of AST slices, transformers) is not counted."
  },
  {
   "property": "C88",
   "status": "proved",
   "theorems": [
    "Takenoco.C88_astType",
    "Takenoco.C88_names",
    "Takenoco.C88_unknown",
    "Takenoco.C88_status",
    "Takenoco.C88_formula",
    "Takenoco.C88_torpn",
    "Takenoco.C88_csv"
   ],
   "note": "strconv.Quote is modelled for printable ASCII without quotes and backslashes, which is all that the examples give to it; texts of time.Parse errors and of base errors are not modelled."
  },
  {
   "property": "C89",
   "status": "proved",
   "theorems": [
    "Takenoco.C89_integer",
    "Takenoco.C89_float",
    "Takenoco.C89_numeric",
    "Takenoco.C89_radix",
    "Takenoco.C89_longest",
    "Takenoco.C89_matches"
   ],
   "note": ""
  },
  {
   "property": "C90",
   "status": "proved",
   "theorems": [
    "Takenoco.C90_formula",
    "Takenoco.C90_torpn"
   ],
   "note": ""
  },
  {
   "property": "C91",
   "status": "proved",
   "theorems": [
    "Takenoco.C91_alike",
    "Takenoco.C91_formula",
    "Takenoco.C91_torpn",
    "Takenoco.C91_refusing"
   ],
   "note": ""
  },
  {
   "property": "C92",
   "status": "proved",
   "theorems": [
    "Takenoco.C92_production",
    "Takenoco.C92_postfix",
    "Takenoco.C92_groups",
    "Takenoco.C92_expression",
    "Takenoco.C92_shared"
   ],
   "note": ""
  },
  {
   "property": "C93",
   "status": "proved",
   "theorems": [
    "Takenoco.C93_engine_to_peg",
    "Takenoco.C93_peg_to_engine",
    "Takenoco.C93_matches",
    "Takenoco.C93_unmatched",
    "Takenoco.C93_diverges",
    "Takenoco.C93_polish"
   ],
   "note": ""
  },
  {
   "property": "C94",
   "status": "proved",
   "theorems": [
    "Takenoco.C94_text",
    "Takenoco.C94_exact",
    "Takenoco.C94_same",
    "Takenoco.C94_places",
    "Takenoco.C94_concat_place"
   ],
   "note": ""
  },
  {
   "property": "C95",
   "status": "proved",
   "theorems": [
    "Takenoco.C95_boundaries",
    "Takenoco.C95_whole",
    "Takenoco.C95_clean",
    "Takenoco.C95_seqI"
   ],
   "note": ""
  },
  {
   "property": "C96",
   "status": "proved",
   "theorems": [
    "Takenoco.C96_consumed",
    "Takenoco.C96_accepted"
   ],
   "note": ""
  },
  {
   "property": "C97",
   "status": "proved",
   "theorems": [
    "Takenoco.C97_calls",
    "Takenoco.C97_rule",
    "Takenoco.C97_direct",
    "Takenoco.C97_behind_space"
   ],
   "note": ""
  },
  {
   "property": "C98",
   "status": "proved",
   "theorems": [
    "Takenoco.C98_height",
    "Takenoco.C98_linear",
    "Takenoco.C98_grows",
    "Takenoco.C98_csv",
    "Takenoco.C98_formula",
    "Takenoco.C98_torpn"
   ],
   "note": "upper bounds by levels and linear in the source with recursion, linear lower bound, and the bounds for csv, formula and torpn"
  },
  {
   "property": "C99",
   "status": "proved",
   "theorems": [
    "Takenoco.C99_table",
    "Takenoco.C99_written",
    "Takenoco.C99_any",
    "Takenoco.C99_formula"
   ],
   "note": "for all tables of left, right, prefix, postfix and conditional operators; failures end with the failure of some operator of the expression, in the order of rewriting, which need not be the leftmost"
  },
  {
   "property": "C100",
   "status": "proved",
   "theorems": [
    "Takenoco.C100_work",
    "Takenoco.C100_linear",
    "Takenoco.C100_whole",
    "Takenoco.C100_brackets",
    "Takenoco.C100_useless_exponential"
   ],
   "note": "linear bound for LL(1) grammars that are finite, not left-recursive and have no useless parts; the last condition is shown to be necessary"
  },
  {
   "property": "C101",
   "status": "proved",
   "theorems": [
    "Takenoco.C101_viable",
    "Takenoco.C101_first_error",
    "Takenoco.C101_rest",
    "Takenoco.C101_longest",
    "Takenoco.C101_whole",
    "Takenoco.C101_brackets"
   ],
   "note": "correct-prefix property, no influence of what comes behind the first wrong character, and the longest viable prefix for LL(1) grammars; grammars with look-ahead are excluded, an example shows why"
  },
  {
   "property": "C102",
   "status": "proved",
   "theorems": [
    "Takenoco.C102_matches",
    "Takenoco.C102_unmatched",
    "Takenoco.C102_diverges",
    "Takenoco.C102_outcomes",
    "Takenoco.C102_language",
    "Takenoco.C102_linear"
   ],
   "note": "the converse of C74: not only does each grammar of the fragment mean a parsing expression, every parsing expression is meant by one; sets of characters are given by functions on runes"
  },
  {
   "property": "C103",
   "status": "proved",
   "theorems": [
    "Takenoco.C103_formula",
    "Takenoco.C103_torpn",
    "Takenoco.C103_formula_not_linear",
    "Takenoco.C103_torpn_not_linear",
    "Takenoco.C103_formula_square",
    "Takenoco.C103_torpn_square"
   ],
   "note": "lower bound matching C90 up to the constant: k²+3k calls for the sum of k+1 ones, n²/4 calls for arbitrarily long texts, no linear bound; for the grammar with a tracer around every parser, so that every call is counted"
  },
  {
   "property": "C104",
   "status": "proved",
   "theorems": [
    "Takenoco.C104_exact",
    "Takenoco.C104_tried",
    "Takenoco.C104_exponential",
    "Takenoco.C104_not_polynomial",
    "Takenoco.C104_factored"
   ],
   "note": "exact number of calls for all parsing expression grammars written as in C102; an exponential family with its linear rewriting"
  },
  {
   "property": "C105",
   "status": "proved",
   "theorems": [
    "Takenoco.C105_result",
    "Takenoco.C105_forever",
    "Takenoco.C105_loops",
    "Takenoco.C105_nesting",
    "Takenoco.C105_decided",
    "Takenoco.C105_infinite"
   ],
   "note": "iff for all finite grammars, with a bound for the nesting of calls and a decision procedure; finiteness shown to be needed"
  },
  {
   "property": "C106",
   "status": "proved",
   "theorems": [
    "Takenoco.C106_formula",
    "Takenoco.C106_torpn",
    "Takenoco.C106_formula_brackets",
    "Takenoco.C106_torpn_brackets",
    "Takenoco.C106_unbounded"
   ],
   "note": "lower bound matching C98 up to the constant; for the grammar with a tracer around every parser, so that every call is counted"
  },
  {
   "property": "C107",
   "status": "proved",
   "theorems": [
    "Takenoco.C107_undisturbed",
    "Takenoco.C107_ends",
    "Takenoco.C107_text",
    "Takenoco.C107_csv",
    "Takenoco.C107_formula",
    "Takenoco.C107_shared_context_false"
   ],
   "note": "for all grammars, schedules and callbacks that are functions of what they see; sequentially consistent memory; the variable that Indirect caches its parser in and the global tracer state are not shared; refuted for a shared context"
  },
  {
   "property": "C108",
   "status": "proved",
   "theorems": [
    "Takenoco.C108_same",
    "Takenoco.C108_once",
    "Takenoco.C108_again",
    "Takenoco.C108_parses"
   ],
   "note": "justifies that the other models of Indirect call the function each time; functions that return nil, panic or parse while they build are not modelled"
  },
  {
   "property": "C109",
   "status": "proved",
   "theorems": [
    "Takenoco.C109_never",
    "Takenoco.C109_lookAheadN",
    "Takenoco.C109_twice",
    "Takenoco.C109_dead",
    "Takenoco.C109_seq",
    "Takenoco.C109_charClass"
   ],
   "note": "the laws about sequences are for parsers that do not look at ASTs below their own (as in C57); the laws about alternatives for all parsers"
  },
  {
   "property": "C110",
   "status": "proved",
   "theorems": [
    "Takenoco.C110_blanks",
    "Takenoco.C110_brackets",
    "Takenoco.C110_minus",
    "Takenoco.C110_op",
    "Takenoco.C110_add",
    "Takenoco.C110_sub",
    "Takenoco.C110_torpn"
   ],
   "note": "in terms of the results of formula.Parse and torpn.Parse alone; examples show that the brackets are needed for products and on the right of a minus sign"
  },
  {
   "property": "C111",
   "status": "proved",
   "theorems": [
    "Takenoco.C111_below",
    "Takenoco.C111_end",
    "Takenoco.C111_beside"
   ],
   "note": "in terms of the results of csv.Parse alone, for texts in UTF-8; examples show that the provisos are needed"
  },
  {
   "property": "C112",
   "status": "proved",
   "theorems": [
    "Takenoco.C112_concat",
    "Takenoco.C112_trim",
    "Takenoco.C112_trimmed",
    "Takenoco.C112_both",
    "Takenoco.C112_last",
    "Takenoco.C112_roll",
    "Takenoco.C112_erase"
   ],
   "note": "equalities of parsers, for any text, well-formed UTF-8 or not"
  }
 ]
}