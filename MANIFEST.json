{"claims":[
{"property": "C01", "status": "proved", "theorems": ["Verif.C01_roundtrip", "Verif.C01_roundtrip_tokens", "Verif.C01_reformat"], "note": "Encoder model over the iterator heap model with a printer; any indent size, width limit, item limit; any fair reader and buffer size."},
{"property": "C02", "status": "partial", "theorems": ["Verif.C02_violated", "Verif.C02_accepts_only_json_partial", "Verif.C02_no_escapes_partial", "Verif.C02_exact"], "note": "the decoder accepts unknown escapes (witness \"\\q\") and does not check UTF-8; proved for valid UTF-8 input whose strings use only RFC escapes; C02_exact says exactly which inputs are decoded, and to what (in particular 01 is read as the two values 0 and 1, and a byte 0xFF between values is the end)"},
{"property": "C03", "status": "proved", "theorems": ["Verif.C03_accepts_all_json", "Verif.C03_single_text"], "note": "adjacent numbers such as 1 2 written 12 are excluded by the separation condition in SepStream, as they cannot be told from one number"},
{"property": "C04", "status": "proved", "theorems": ["Verif.C04_success_well_formed", "Verif.C04_failure_prefix"], "note": ""},
{"property": "C05", "status": "proved", "theorems": ["Verif.C05_json_decoding_never_panics"], "note": "for every reader, including failing and stalling ones, and every buffer size of at least 2 (8192 in the code)"},
{"property": "C06", "status": "proved", "theorems": ["Verif.C06_json_independent_of_reads", "Verif.C06_jpv_independent_of_reads"], "note": "For the JSON and the JPV decoder over the buffered scanner, every fair read schedule and every buffer size of at least 2."},
{"property": "C07", "status": "partial", "theorems": ["Verif.C07_failure_truncates", "Verif.C07_stall_truncates", "Verif.C07_failure_reported_partial", "Verif.C07_violated"], "note": "JSON decoder. Truncation proved in full; reporting proved for inputs without the byte 0xFF, which the scanner takes for the end of input"},
{"property": "C08", "status": "proved", "theorems": ["Verif.C08_output_extends", "Verif.C08_monotone", "Verif.C08_common_prefix", "Verif.C08_prompt"], "note": ""},
{"property": "C09", "status": "partial", "theorems": ["Verif.C09_violated", "Verif.C09_every_byte_counts_partial", "Verif.C09_read_up_to_FF_partial"], "note": "violated: the byte 0xFF inside the input is taken for the end of input; proved for inputs without it"},
{"property": "C10", "status": "partial", "theorems": ["Verif.C10_line", "Verif.C10_position_partial", "Verif.C10_column_exactly", "Verif.C10_violated"], "note": "lines proved; columns are wrong after characters of three or four bytes, proved for the others; C10_column_exactly says what the column is for all lines of characters and that these are the only exceptions"},
{"property": "C11", "status": "proved", "theorems": ["Verif.C11_minimal_text", "Verif.C11_only_whitespace"], "note": ""},
{"property": "C12", "status": "proved", "theorems": ["Verif.C12_level_restored", "Verif.C12_lines_indented", "Verif.C12_one_line"], "note": "Line-by-line statement is for output without colours; C14 says what colours add."},
{"property": "C13", "status": "proved", "theorems": ["Verif.C13_write_failures", "Verif.C13_prefix"], "note": ""},
{"property": "C14", "status": "proved", "theorems": ["Verif.C14_colours_decorate", "Verif.C14_removing_codes"], "note": ""},
{"property": "C15", "status": "partial", "theorems": ["Verif.C15_violated", "Verif.C15_violated_escape", "Verif.C15_round_trip_partial", "Verif.C15_quoted_exact_partial"], "note": "Violated in the default mode: an empty key, or one that consists of escapes, is marked as alphanumeric and printed after a dot. Proved in both modes for keys that denote Unicode strings, in the default mode if keys marked as alphanumeric are identifiers; arrays of at most 2^53 items."},
{"property": "C16", "status": "partial", "theorems": ["Verif.C16_violated", "Verif.C16_subset_partial"], "note": "Violated in the default mode as C15. Proved in both modes under the same restrictions, for every selection of the lines."},
{"property": "C17", "status": "partial", "theorems": ["Verif.C17_violated", "Verif.C17_violated_shorter", "Verif.C17_violated_escape", "Verif.C17_violated_index", "Verif.C17_returns_partial"], "note": "False: missing '=', a path that is a prefix of the previous one, incomparable keys panic (witnesses). Partial: these are the only reasons."},
{"property": "C18", "status": "partial", "theorems": ["Verif.C18_violated", "Verif.C18_violated_missing", "Verif.C18_well_formed_partial"], "note": "False for errors inside a value (witnesses). Partial: on success always, on error unless the value of some line is not JSON."},
{"property": "C19", "status": "partial", "theorems": ["Verif.C19_violated", "Verif.C19_violated_merged", "Verif.C19_values_partial", "Verif.C19_streams_partial"], "note": "Violated: two arrays do not decode, two objects are merged. Proved if all values but the last one are scalars or empty collections."},
{"property": "C20", "status": "proved", "theorems": ["Verif.C20_records", "Verif.C20_counts"], "note": "For any records and any final error of the reader; what the reader of encoding/csv delivers, see C68 (there all records have the same number of fields). If names are set and the file has a header as well, the names of the header are appended to those set (the command line forbids the combination)."},
{"property": "C21", "status": "partial", "theorems": ["Verif.C21_content_partial", "Verif.C21_exactly_when_partial", "Verif.C21_misread_violated", "Verif.C21_violated", "Verif.C21_violated_control", "Verif.C21_header_partial", "Verif.C21_no_panic"], "note": "False: fields made of the characters of numbers that begin with a number are cut to that number (2024-01-15 becomes 2024), because reader.Len() is what the scanner has not yet buffered; and control characters are not escaped. Proved for all other fields; exact for fields up to the size of the buffer."},
{"property": "C22", "status": "partial", "theorems": ["Verif.C22_violated", "Verif.C22_valid_partial", "Verif.C22_exactly_when", "Verif.C22_reread_partial"], "note": "False: control characters other than line feeds are copied into string literals. Exact: valid exactly if there are none; then the JSON written reads back to the same tokens up to flags."},
{"property": "C23", "status": "proved", "theorems": ["Verif.C23_refines", "Verif.C23_refines_data", "Verif.C23_isolated"], "note": "Refinement of the cursor pool to independent positions, for every operation sequence; no panic."},
{"property": "C24", "status": "partial", "theorems": ["Verif.C24_violated", "Verif.C24_partial", "Verif.C24_shift_partial"], "note": "False of the code: a lone cursor never shrinks the window (C24_violated). The bound holds while two cursors are live and none is detached."},
{"property": "C25", "status": "partial", "theorems": ["Verif.C25_delivers", "Verif.C25_violated", "Verif.C25_second_reader_violated", "Verif.C25_partial"], "note": "Delivery holds; the caller's slice is overwritten after more than 100 counted steps (C25_violated)."},
{"property": "C26", "status": "proved", "theorems": ["Verif.C26_in_step", "Verif.C26_partial_reading"], "note": "For any program over the operations that does not advance the input iterator (if the specification says its operations return), and without assumptions for all scripts of traversal, discard, copy and clone at any depth."},
{"property": "C27", "status": "proved", "theorems": ["Verif.C27_copy_stream", "Verif.C27_copy_in_step", "Verif.C27_member_by_member"], "note": "About unstarted values; Copy after Discard is recorded as misuse in C27_copy_of_discarded."},
{"property": "C28", "status": "proved", "theorems": ["Verif.C28_independent", "Verif.C28_complete"], "note": "C28_independent: any readers that cannot forge references, any interleaving, abandoning with or without detach; the readers' operations must return when alone. C28_complete: complete readings, no assumptions."},
{"property": "C29", "status": "partial", "theorems": ["Verif.C29_equal_partial", "Verif.C29_safe_partial", "Verif.C29_rounded_partial", "Verif.C29_violated", "Verif.C29_violated_panic"], "note": "Proved on the heap model of the iterators, for both orders, any partial reading before and any values whose number literals float64 tells apart (sharp_short: integers of up to 15 digits) and whose strings have valid escapes. C29_rounded_partial: for all values with numbers in the range of float64, equality is that of the data up to the rounding of numbers. Violated: distinct numbers equal after rounding compare equal; distinct out-of-range numbers and invalid escapes panic."},
{"property": "C30", "status": "proved", "theorems": ["Verif.C30_maxDepth", "Verif.C30_maxDepth_negative", "Verif.C30_depth_bound", "Verif.C30_compose", "Verif.C30_deep_enough"], "note": ""},
{"property": "C31", "status": "partial", "theorems": ["Verif.C31_split", "Verif.C31_join", "Verif.C31_split_join", "Verif.C31_join_split_partial", "Verif.C31_violated"], "note": "All parts proved except join after split for an array carrying an elision mark, which is false: the mark is lost."},
{"property": "C32", "status": "partial", "theorems": ["Verif.C32_key_partial", "Verif.C32_deep_key_partial", "Verif.C32_violated"], "note": "Proved for streams whose keys denote strings. A key with an invalid escape, which the JSON decoder accepts, makes the extractors panic."},
{"property": "C33", "status": "proved", "theorems": ["Verif.Pipeline.C33_schedules", "Verif.Pipeline.C33_deterministic", "Verif.Pipeline.C33_builtin", "Verif.Pipeline.C33_confluent", "Verif.Pipeline.C33_end"], "note": "Stages are state machines with sends, receives and own steps; the transforms that loop over tokens are instances (C66: all stages of the program).  Confluence holds for any goroutines, also such that never end.  Panics are outside of the model."},
{"property": "C34", "status": "partial", "theorems": ["Verif.C34_depth", "Verif.C34_split", "Verif.C34_join", "Verif.C34_keys_partial", "Verif.JPath.C34_query_partial", "Verif.JPath.C34_basic_partial", "Verif.JPath.C34_violated", "Verif.JPath.C34_violated_next"], "note": "Proved for depth limit, split and join, for key extraction with valid keys, and for queries within the conditions of C38; backward slices over collections are refuted, they may even take the next value of the input."},
{"property": "C35", "status": "proved", "theorems": ["Verif.C35_index"], "note": "For every compiled selector list containing the index selector (the window is shared), every array length and every I-JSON index; spec: RFC 9535 index selector on positions."},
{"property": "C36", "status": "partial", "theorems": ["Verif.C36_exactly_when", "Verif.C36_slices_partial", "Verif.C36_violated_start", "Verif.C36_violated_reverse"], "note": "The code steps from the unclamped start: exact condition for agreement with the RFC 9535 slice algorithm proved for all slices; agreement proved for slices without start, with step -1, 0, 1, or start inside the array; false otherwise (witnesses)."},
{"property": "C37", "status": "proved", "theorems": ["Verif.C37_window", "Verif.C37_no_more", "Verif.C37_selection"], "note": "For all lists of compiled selectors sharing a window and all array lengths."},
{"property": "C38", "status": "partial", "theorems": ["Verif.JPath.C38_child_partial", "Verif.JPath.C38_basic_partial", "Verif.JPath.C38_filters_partial", "Verif.JPath.C38_backward_partial", "Verif.JPath.C38_violated", "Verif.JPath.C38_violated_follow"], "note": "Proved for child segments of all selectors except stepped slices from a start that must be clamped, with filters that are safe, in particular with all filters of a syntactic class (comparisons of literals, relative singular queries and counts; tests of queries; match and search with patterns the library gets right; and, or, not; nested); with backward slices in the segments only if the nodes selected are scalars and only names and indices follow, and other backward slices are refuted."},
{"property": "C39", "status": "partial", "theorems": ["Verif.JPath.C39_strict_partial", "Verif.JPath.C39_multiset_partial", "Verif.JPath.C39_backward_partial", "Verif.JPath.C39_violated", "Verif.JPath.C39_violated_backward"], "note": "Order proved for descendant segments with one selector that goes forward, multiset for any number and for backward slices to scalars; order with several selectors or with a backward slice refuted."},
{"property": "C40", "status": "partial", "theorems": ["Verif.JPath.C40_existence_partial", "Verif.JPath.C40_basic_partial", "Verif.JPath.C40_violated"], "note": "Proved when relative test queries have one selector per segment and rooted ones run on collections; several selectors refuted."},
{"property": "C41", "status": "partial", "theorems": ["Verif.JPath.C41_comparison_partial", "Verif.JPath.C41_relative_partial", "Verif.JPath.C41_rounded_partial", "Verif.JPath.C41_violated", "Verif.JPath.C41_violated_range"], "note": "Proved for numbers that float64 distinguishes, and, with number literals that have the values of the nearest IEEE 754 double (as I-JSON allows), for all numbers in its range (C41_rounded_partial, including literals of the query). As exact numbers: rounding and out-of-range numbers refuted."},
{"property": "C42", "status": "partial", "theorems": ["Verif.JPath.C42_values_partial", "Verif.JPath.C42_tests_partial", "Verif.JPath.C42_count_partial", "Verif.JPath.C42_violated_length", "Verif.JPath.C42_violated_value", "Verif.JPath.C42_violated_many", "Verif.JPath.C42_violated_match"], "note": "Proved outside of lengths of objects and rooted arrays, value of collections or of queries with several selectors, and patterns whose leftmost-first match differs; these are refuted."},
{"property": "C43", "status": "partial", "theorems": ["Verif.JPath.C43_comparison_partial", "Verif.JPath.C43_unique", "Verif.JPath.C43_violated"], "note": "Proved except for rooted singular queries that select nothing (which panic, refuted) or run on a scalar root."},
{"property": "C44", "status": "partial", "theorems": ["Verif.JPath.C44_plain_partial", "Verif.JPath.C44_basic_partial", "Verif.JPath.C44_violated_missing", "Verif.JPath.C44_violated_scalar", "Verif.JPath.C44_violated_backward", "Verif.JPath.C44_violated_pattern"], "note": "Proved for plain queries; panics refute it for missing rooted members, for scalar roots, for backward slices over collections, and for the second use of a pattern that the library rejects."},
{"property": "C45", "status": "partial", "theorems": ["Verif.JPath.C45_tables", "Verif.JPath.C45_meaning_partial", "Verif.JPath.C45_filter_partial", "Verif.JPath.C45_violated"], "note": "The tables (sharing, references, order) are proved for all queries; the meaning for plain ones; the length of a shared rooted array refutes it."},
{"property": "C46", "status": "partial", "theorems": ["Verif.C46_int", "Verif.C46_accepted", "Verif.C46_rejected_partial", "Verif.C46_violated"], "note": "parseInt is exact; queries with integers in range get their syntax tree with these values; an out-of-range integer makes the query invalid unless it is in brackets after two dots, where the error is dropped (grammar.go:666): $..[9007199254740992] is accepted. The theorems are about parse trees; C54 has the same for texts."},
{"property": "C47", "status": "proved", "theorems": ["Verif.C47_lexer_sound", "Verif.C47_lexer_complete", "Verif.C47_single_quoted", "Verif.C47_accepted"], "note": "Literals accepted by the lexer are exactly those of the RFC 9535 grammar (as a relation with the string denoted), and the conversion gives the string denoted."},
{"property": "C48", "status": "partial", "theorems": ["Verif.C48_translation", "Verif.C48_compile_exactly", "Verif.C48_compile_partial", "Verif.C48_violated"], "note": "Translation proved; the cache stores a nil expression for a pattern that does not compile, so the second compilation of an invalid pattern succeeds with nil (witness). Go's regexp.Compile is a parameter."},
{"property": "C49", "status": "partial", "theorems": ["Verif.C49_json_exactly", "Verif.C49_json_partial", "Verif.C49_violated_jpv", "Verif.C49_violated_json", "Verif.C49_violated_pipeline"], "note": "Texts starting with a bracket are recognised as JSON, exactly those; JPV is never recognised, JSON scalars and JSON after white space are not (witnesses)."},
{"property": "C50", "status": "proved", "theorems": ["Verif.C50_pack_faithful", "Verif.C50_code_injective", "Verif.C50_pack_injective", "Verif.C50_setFlag", "Verif.C50_constructors"], "note": ""},
{"property": "C51", "status": "partial", "theorems": ["Verif.C51_violated_empty", "Verif.C51_violated_escape", "Verif.C51_alnum_accurate_partial", "Verif.C51_jpv_partial", "Verif.C51_csv_partial", "Verif.C51_violated_csv"], "note": "All three decoders. Violated by the empty string (JSON, JPV and CSV headers) and by strings with escapes (JSON, JPV); proved for all others, in both directions"},
{"property": "C52", "status": "partial", "theorems": ["Verif.C52_violated", "Verif.C52_accepts_only_lines_partial"], "note": "False behind a byte 0xFF (witness); string escapes as in C02."},
{"property": "C53", "status": "proved", "theorems": ["Verif.JPath.C53_welltyped"], "note": "Exact characterisation for all syntax trees."},
{"property": "C54", "status": "partial", "theorems": ["Verif.JPath.C54_accepts", "Verif.JPath.C54_unambiguous", "Verif.JPath.C54_exact_partial", "Verif.JPath.C54_exact_blanks_partial", "Verif.JPath.C54_sound_partial", "Verif.JPath.C54_violated_error", "Verif.JPath.C54_violated_blanks", "Verif.JPath.C54_violated_formfeed", "Verif.JPath.C54_violated_singular", "Verif.JPath.C54_violated_descendant"], "note": "Every text of the grammar is read as what it denotes (full). The converse is false in four ways, each with a witness: the error of the parser is lost (@ is read as $), blanks around a query (parser that is not strict), form feeds and blanks in singular queries, and errors in brackets after two dots are lost. The partial theorems are an equivalence with exactly these exceptions. Assumed: the semantics of the tokeniser and of the parsing library github.com/arnodel/grammar, which is not in the repository (stated in PathLexer and PathParser)."},
{"property": "C55", "status": "partial", "theorems": ["Verif.Cmd.C55_pipeline_partial", "Verif.Cmd.C55_json_partial", "Verif.Cmd.C55_query_partial", "Verif.Cmd.C55_filters_partial", "Verif.Cmd.C55_identity", "Verif.Cmd.C55_deterministic", "Verif.Cmd.C55_violated", "Verif.Cmd.C55_violated_panic"], "note": "False for some slices: `jp '$[-5::3]'` on [1,2,3] writes 2 where the specification selects 1, and `jp '$[::-1]'` on [[1],[2]] writes a text that is not JSON, with status 0. Proved for the rest: any list of split, join, trace, depth=n and queries, any output options, any arrival of the input; queries with names, wildcards, indices and slices outside the two exceptions without further assumptions; texts of queries with filters of a syntactic class (see C38), for all inputs with numbers in the range of float64, if strconv formats numbers as specified (FmtOk); other filters if the comparisons are within what C41 and C40 cover. Missing: the order of results of descendant segments that are not strict (C39), JSON input only (JPV: C15, CSV: C20 to C22), members with equal keys; flag parsing, and goroutines run one after the other (C33)."},
{"property": "C56", "status": "partial", "theorems": ["Verif.Cmd.C56_accepts", "Verif.Cmd.C56_exact_partial", "Verif.Cmd.C56_unambiguous", "Verif.Cmd.C56_list", "Verif.Cmd.C56_violated"], "note": "A blank after a query is accepted. Exact with the lax syntax of queries (see C54), for arguments in UTF-8 whose syntax tree has no segment without selectors."},
{"property": "C57", "status": "partial", "theorems": ["Verif.Cmd.C57_explicit_partial", "Verif.Cmd.C57_auto_partial", "Verif.Cmd.C57_json_partial", "Verif.Cmd.C57_violated"], "note": "False if the input format is guessed: only the bytes of the first read are used, so a table with a header is rejected if the first read gives one byte. Proved: with an explicit format nothing depends on the arrival; with auto only what the first read delivers matters; JSON that begins with a brace or bracket is always recognised."},
{"property": "C58", "status": "partial", "theorems": ["Verif.Cmd.C58_status_partial", "Verif.Cmd.C58_starts", "Verif.Cmd.C58_bad_argument", "Verif.Cmd.C58_silent_partial", "Verif.Cmd.C58_valid_partial", "Verif.Cmd.C58_success_partial", "Verif.Cmd.C58_violated", "Verif.Cmd.C58_violated_panic"], "note": "False: after a syntax error in the input, and after a panic of the encoder, the status is 0. Proved: status 1 exactly if the program ends before the pipeline starts, then nothing is written; without a reported error the input was valid."},
{"property": "C59", "status": "partial", "theorems": ["Verif.Enc.C59_array_partial", "Verif.Enc.C59_object", "Verif.Enc.C59_violated"], "note": "False: after a scalar wider than the limit the running width is not reset, so all later scalars of the array get lines of their own. The rest is proved; the lines are as full as possible if no scalar is wider than the limit. The printer calls determine the bytes (encode_good, C01)."},
{"property": "C60", "status": "partial", "theorems": ["Verif.Cmd.C60_colors_partial", "Verif.Cmd.C60_violated_colors", "Verif.Cmd.C60_color_mode", "Verif.Cmd.C60_violated_fallback", "Verif.Cmd.C60_violated_scalar", "Verif.Cmd.C60_queries_partial", "Verif.Cmd.C60_violated_query", "Verif.Cmd.C60_violated_width", "Verif.Cmd.C60_order"], "note": "False in four places: strings, booleans and null have other colours; the program does not fall back to JSON; one of the queries is rejected; an array is not split with width 10. The other queries and the example of the order are right."},
{"property": "C61", "status": "partial", "theorems": ["Verif.Cmd.C61_fields", "Verif.Cmd.C61_csv_partial", "Verif.Cmd.C61_jpv_partial", "Verif.Cmd.C61_jpv_default_partial", "Verif.Cmd.C61_violated", "Verif.Cmd.C61_violated_merged"], "note": "Violated: jp -out jpv followed by jp -in jpv loses empty keys and merges several objects. Proved: the CSV options for all records and all lists of names, with the arguments of C55; JPV between two runs is transparent for one value (exactly, for any arguments and options of the second run, if keys are quoted; without arguments of the second run also in the default mode). The records are those of the model of encoding/csv; which these are, see C68. Missing: fields with control characters, repeated keys, several collections, depth before JPV."},
{"property": "C62", "status": "partial", "theorems": ["Verif.Cmd.C62_lines_partial", "Verif.Cmd.C62_input", "Verif.Cmd.C62_again_partial", "Verif.Cmd.C62_csv_partial", "Verif.Cmd.C62_jpv_partial", "Verif.Cmd.C62_violated"], "note": "Violated: with -out jpv and -json-lines the pairs of a value are written without line feeds. The rest is proved for the arguments that C55 gives a meaning to; JPV without depth."},
{"property": "C63", "status": "partial", "theorems": ["Verif.Cmd.C63_pipe_partial", "Verif.Cmd.C63_means_partial", "Verif.Cmd.C63_guess", "Verif.Cmd.C63_violated", "Verif.Cmd.C63_violated_empty", "Verif.Cmd.C63_violated_depth"], "note": "False if the second program must guess the format of scalars or of nothing, and after depth. Proved for all other cases: any options and arguments of the second program, any arguments of the first that give values of JSON texts; exactly when the guess succeeds."},
{"property": "C64", "status": "partial", "theorems": ["Verif.Cmd.C64_number", "Verif.Cmd.C64_exact_partial", "Verif.Cmd.C64_accepts", "Verif.Cmd.C64_help", "Verif.Cmd.C64_status", "Verif.Cmd.C64_main", "Verif.Cmd.C64_default", "Verif.Cmd.C64_info", "Verif.Cmd.C64_fatal", "Verif.Cmd.C64_alias", "Verif.Cmd.C64_order", "Verif.Cmd.C64_violated_strict", "Verif.Cmd.C64_violated_colors"], "note": "False for the documented option -strict, and for values of the old options for colours. Proved: a grammar of the command line and of integer literals that is equivalent to the model of Go's flag package; effects, defaults and other names of the options; exactly when the status is 2 and when the help text is shown; options behind the first transform give status 1."},
{"property": "C65", "status": "partial", "theorems": ["Verif.C65_query_partial", "Verif.C65_query_inside_partial", "Verif.C65_query_stays", "Verif.C65_split", "Verif.C65_json", "Verif.C65_json_inside", "Verif.C65_jpv", "Verif.C65_jpv_inside", "Verif.C65_terminal", "Verif.C65_pipe_partial", "Verif.C65_chain_partial", "Verif.C65_violated", "Verif.C65_violated_pipe"], "note": "False for pipes (4096 bytes are kept) and for stopping after N items. Proved for all streams, cuts and continuations: queries that need not look ahead write the nodes of what has come, any query writes the nodes of complete values, split writes complete items, the JSON encoder keeps back at most a bounded rest, the JPV encoder at most the line of an empty array or object, both encoders write complete values, on a terminal all of it is visible, and a chain from input bytes to the terminal. Missing: queries with look-ahead inside of values, the bound with colours, several transforms in one theorem."},
{"property": "C66", "status": "partial", "theorems": ["Verif.Pipeline.C66_schedules", "Verif.Pipeline.C66_json_partial", "Verif.Pipeline.C66_violated"], "note": "Proved for every run that has a result in the model of main (C55-C64), also with errors of the decoder and panics of the encoder: bounded number of steps, no deadlock, output at any time a prefix, same result, errors reported before the end, all goroutines ended. For JSON input all schedules have the same number of steps. False if a transformer panics (crash with schedule-dependent output). Simplifications: an operation on an iterator is done at one moment when all it needs has come; panics of the encoder come after the close of its channel."},
{"property": "C67", "status": "partial", "theorems": ["Verif.Cmd.C67_good", "Verif.Cmd.C67_prefix", "Verif.Cmd.C67_partial", "Verif.Cmd.C67_terminal_partial", "Verif.Cmd.C67_violated"], "note": "Proved: the program always ends, what was taken is a prefix, closed pipes are silent, at most 4096 bytes can be lost silently, none on a terminal. False in general: the last up to 4096 bytes are lost silently, because the error of the final flush is ignored. Simplification: the decoder and the transformers are not interrupted when the encoder ends early."},
{"property": "C68", "status": "partial", "theorems": ["Verif.Csv.C68_rfc_partial", "Verif.Csv.C68_exact", "Verif.Csv.C68_error", "Verif.Csv.C68_prefix", "Verif.Csv.C68_width", "Verif.Cmd.C68_program_partial", "Verif.Csv.C68_violated_ragged", "Verif.Cmd.C68_violated_program", "Verif.Csv.C68_violated_crlf", "Verif.Csv.C68_violated_blank"], "note": "False for records with different numbers of fields, for records with one empty field, and for CRLF in quoted fields. Proved for all other texts of RFC 4180, and exactly for the grammar GoRecords; the records before an error are delivered. The source of encoding/csv is not in /repo, so its model could not be compared with it line by line."},
{"property": "C69", "status": "partial", "theorems": ["Verif.C69_exact_partial", "Verif.C69_kept_partial", "Verif.C69_violated", "Verif.C69_violated_zero", "Verif.C69_violated_surrogate"], "note": "False for indices from 2^53 on, for indices with leading zeros, and for keys with lone surrogates. Otherwise proved as an equivalence."},
{"property": "C70", "status": "partial", "theorems": ["Verif.GoRe.C70_search_partial", "Verif.GoRe.C70_match_sound_partial", "Verif.GoRe.C70_match_partial", "Verif.GoRe.C70_accepted_partial", "Verif.GoRe.C70_query_search_partial", "Verif.GoRe.C70_query_match_partial", "Verif.GoRe.C70_program_partial", "Verif.GoRe.C70_jp_partial", "Verif.GoRe.C70_violated_match", "Verif.GoRe.C70_violated_anchor", "Verif.GoRe.C70_violated_zero", "Verif.GoRe.C70_violated_count"], "note": "False for patterns whose first match is not the longest, for unescaped ^ and $, for counts with leading zeros and for counts over 1000. Proved for search with all other patterns that Go accepts, and for match with those of which the next character decides how they are matched; also for the whole program, from the text of the query and of the input to the text of the output (C70_program_partial; C70_jp_partial with the models of strconv and regexp in place of assumptions)."},
{"property": "C71", "status": "partial", "theorems": ["Verif.GoScalar.C71_roundtrip_partial", "Verif.GoScalar.C71_equal_partial", "Verif.GoScalar.C71_strings", "Verif.GoScalar.C71_ints", "Verif.GoScalar.C71_other", "Verif.GoScalar.C71_violated_nan", "Verif.GoScalar.C71_violated_utf8", "Verif.GoScalar.C71_violated_int"], "note": "False for NaN and infinite numbers, for strings that are not UTF-8 (exactly: C71_strings), and for integers that are not of type float64 (exactly: C71_ints). Otherwise proved. FormatFloat is a model of the Go library (FormatFloat.lean), which is not in the repository."},
{"property": "C72", "status": "partial", "theorems": ["Verif.Cmd.C72_json", "Verif.Cmd.C72_jpv", "Verif.Cmd.C72_csv_partial", "Verif.Cmd.C72_names", "Verif.Cmd.C72_violated"], "note": "False for names of CSV columns with quotes, line feeds or backslashes (C72_names: exactly these are not flagged). Proved for JSON, JPV and all other CSV input, with the arguments that C55 gives a meaning to."},
{"property": "C73", "status": "partial", "theorems": ["Verif.C73_jpv_truncates", "Verif.C73_jpv_stall", "Verif.C73_jpv_reported_partial", "Verif.C73_violated_jpv", "Verif.C73_csv_truncates", "Verif.C73_csv_reported_partial", "Verif.C73_violated_csv"], "note": "Truncation is proved for all inputs (CSV: on the model of Go's encoding/csv). Reporting of the error is false for JPV with the byte 0xFF, and for CSV with quotes when the reader fails inside a line break; proved for JPV without 0xFF and for CSV without quotes."},
{"property": "C74", "status": "partial", "theorems": ["Verif.Cmd.C74_crashes", "Verif.Cmd.C74_ends", "Verif.Cmd.C74_json_csv_partial", "Verif.Cmd.C74_csv_partial", "Verif.Cmd.C74_texts_partial", "Verif.Cmd.C74_split_partial", "Verif.Cmd.C74_violated_split", "Verif.Cmd.C74_violated_query", "Verif.Cmd.C74_violated_missing", "Verif.Cmd.C74_violated_pattern", "Verif.Cmd.C74_violated_jpv"], "note": "False for truncated input with split or a query, for queries of C44_violated, and for the JPV input of C17_violated. Proved: the program always ends, with a result or a panic of the JPV decoder, of split or of a query; without split and queries it has a result for all JSON and CSV input, valid or not; with split for all CSV input and all valid JSON input, and for other JSON input it crashes exactly if the tokens end in an array that is not part of another value (split as first argument, no further split or queries); with queries for valid JSON input as in C55. Missing: which queries crash, in other cases."},
{"property": "C75", "status": "partial", "theorems": ["Verif.C75_scanner", "Verif.C75_json", "Verif.C75_split", "Verif.C75_encoders", "Verif.JPath.C75_queries_partial", "Verif.JPath.C75_violated"], "note": "False for descendant segments (C75_violated). Proved for the scanner and the JSON decoder, for split and the encoders on any tokens, and for queries of child segments with one forward selector each, in all states that are reached. Missing: what filters, negative indices and several selectors store. Memory that Go's garbage collector frees is not counted."},
{"property": "C76", "status": "partial", "theorems": ["Verif.Cmd.C76_steps_partial", "Verif.Cmd.C76_values_partial", "Verif.GoRe.C76_program_partial", "Verif.GoRe.C76_jp_partial", "Verif.Cmd.C76_root", "Verif.Cmd.C76_split", "Verif.Cmd.C76_join_split", "Verif.Cmd.C76_depth", "Verif.Cmd.C76_violated"], "note": "False for slices that go backward (C76_violated). Proved as an equivalence of results for queries of the class of C55 (shapeSegs) with exact segments, for all options and further arguments; with any descendant segments the same values are written, maybe in another order; the laws for $, split, join and depth. Missing: other filters."},
{"property": "C77", "status": "proved", "theorems": ["Verif.JPath.C77_queries_end", "Verif.JPath.C77_rounds", "Verif.Cmd.C77_program_ends"], "note": "On the sequential composition of the transformers (for schedules see C66). A crash counts as an end."},
{"property": "C78", "status": "partial", "theorems": ["Verif.C78_json_encoder", "Verif.C78_jpv_encoder", "Verif.C78_split", "Verif.C78_depth", "Verif.C78_csv_lines", "Verif.Cmd.C78_program_partial", "Verif.Cmd.C78_violated_join", "Verif.Cmd.C78_violated_jpv", "Verif.Cmd.C78_csv_midline"], "note": "False for join (C78_violated_join) and JPV input (C78_violated_jpv). Proved for the encoders, split and depth on all tokens, and for the program with JSON and CSV input (which fails, or ends: JSON not in a number, CSV at the end of a line; C78_csv_midline: this is needed) and the arguments split, depth and trace. Missing: queries, JPV input. On the sequential composition of the transformers (for schedules see C66)."},
{"property": "C79", "status": "proved", "theorems": ["Verif.JPath.C79_queries", "Verif.C79_transformers", "Verif.C79_json_encoder", "Verif.C79_jpv_encoder", "Verif.Cmd.C79_chain", "Verif.Cmd.C79_program", "Verif.Cmd.C79_json_slices", "Verif.Cmd.C79_jpv_slices", "Verif.Cmd.C79_csv_fields"], "note": "Queries, split and the extractors of the package legacy on all tokens; chains of all transformers; both encoders; the program in all formats; slices for JSON and JPV input, fields for CSV input, for all readers. On the sequential composition of the transformers (for schedules see C66)."},
{"property": "C80", "status": "proved", "theorems": ["Verif.C80_json_encoder", "Verif.C80_jpv_encoder", "Verif.Cmd.C80_program"], "note": "For readers that make progress. On the sequential composition of the transformers (for schedules see C66). The reader of CSV is the model of Go's encoding/csv."},
{"property": "C81", "status": "partial", "theorems": ["Verif.Cmd.C81_json_partial", "Verif.Cmd.C81_formats_partial", "Verif.Cmd.C81_violated_json", "Verif.Cmd.C81_violated_csv"], "note": "Violated by a raw control character after a backslash in JSON, and by control characters in CSV fields; the two partial theorems say that there is no other way. Not covered: DEL and the C1 control characters, which RFC 8259 allows in strings, and colours (C72)."},
{"property": "C82", "status": "proved", "theorems": ["Verif.Cmd.C82_values", "Verif.Cmd.C82_reformat", "Verif.Cmd.C82_idempotent", "Verif.Cmd.C82_lossless"], "note": "For runs that are told, or guess, that the input is JSON (C49, C63 say when that fails), on complete input. Output as JSON without colours. On the sequential composition of the transformers (for schedules see C66)."},
{"property": "C83", "status": "proved", "theorems": ["Verif.C83_reader", "Verif.Cmd.C83_program", "Verif.Cmd.C83_windows", "Verif.Cmd.C83_final", "Verif.Cmd.C83_blank"], "note": "For an explicit input format (if it is guessed, it depends on the first read, see C57), on the model of Go's encoding/csv, for readers that make progress. On the sequential composition of the transformers (for schedules see C66)."},
{"property": "C84", "status": "partial", "theorems": ["Verif.Cmd.C84_header_partial", "Verif.Cmd.C84_valid_partial", "Verif.Cmd.C84_mismatch", "Verif.Cmd.C84_violated", "Verif.Cmd.C84_violated_quotes"], "note": "False if the first record has another number of fields than there are names (C84_violated; then there is no output with the names in the first line, C84_mismatch) and for names with quotes (C84_violated_quotes). Proved otherwise: for all names without quotes and line breaks, and all texts, valid CSV or not, also if reading fails. On the model of Go's encoding/csv, on the sequential composition of the transformers (for schedules see C66)."},
{"property": "C85", "status": "proved", "theorems": ["Verif.Cmd.C85_lines"], "note": "For an explicit input format (if it is guessed, it depends on the first read, see C57), for readers that make progress and do not fail. On the sequential composition of the transformers (for schedules see C66)."},
{"property": "C86", "status": "partial", "theorems": ["Verif.Cmd.C86_csvh", "Verif.Cmd.C86_csv_header_partial", "Verif.Cmd.C86_in_path", "Verif.Cmd.C86_out_path", "Verif.Cmd.C86_unknown", "Verif.Cmd.C86_violated"], "note": "False for -in csv-header with the option -csv-header (C86_violated). Proved otherwise, and that all other names are refused. The names are those of the model of main; flag parsing see C64."}
]}
