{
 "claims": [
  {
   "property": "C01",
   "status": "proved",
   "theorems": [
    "Verif.Props.c01_lossless",
    "Verif.Props.c01_total_lossless"
   ],
   "note": "Complete: every character has a category and every category an unknown-word entry."
  },
  {
   "property": "C02",
   "status": "proved",
   "theorems": [
    "Verif.Props.c02_spans_tile"
   ],
   "note": ""
  },
  {
   "property": "C03",
   "status": "proved",
   "theorems": [
    "Verif.Props.c03_positions"
   ],
   "note": "For every dictionary."
  },
  {
   "property": "C04",
   "status": "proved",
   "theorems": [
    "Verif.Props.c04_no_straddle"
   ],
   "note": "For every dictionary."
  },
  {
   "property": "C05",
   "status": "proved",
   "theorems": [
    "Verif.Props.c05_compositional"
   ],
   "note": "Equality of results, errors and panics included."
  },
  {
   "property": "C06",
   "status": "partial",
   "theorems": [
    "Verif.Props.c06_reuse_partial",
    "Verif.Props.c06_empty_text_fails",
    "Verif.Props.c06_empty_exact"
   ],
   "note": "Holds for all non-empty texts; on the empty text a lattice panics exactly if no text was set before, otherwise it gives no tokens (witness and exact condition proved)."
  },
  {
   "property": "C07",
   "status": "proved",
   "theorems": [
    "Verif.Props.c07_optimal",
    "Verif.Props.c07_optimal_any",
    "Verif.Props.c07_short",
    "Verif.Props.noOverflow_normal",
    "Verif.Props.noOverflow_default"
   ],
   "note": "Candidates are defined in Spec/Segmentation.lean without the lattice."
  },
  {
   "property": "C08",
   "status": "proved",
   "theorems": [
    "Verif.Props.c08_origin",
    "Verif.Props.c08_ids"
   ],
   "note": ""
  },
  {
   "property": "C09",
   "status": "proved",
   "theorems": [
    "Verif.Props.c09_ties"
   ],
   "note": ""
  },
  {
   "property": "C10",
   "status": "proved",
   "theorems": [
    "Verif.Props.c10_no_panic",
    "Verif.Props.c10_bad_context_id_panics"
   ],
   "note": ""
  },
  {
   "property": "C100",
   "status": "proved",
   "theorems": [
    "Verif.Props.c100_tokens",
    "Verif.Props.c100_short",
    "Verif.Props.c100_answers"
   ],
   "note": "for sources given by the specification of C82; the specs Scaled and ScaledMode relate the two lexicons and modes"
  },
  {
   "property": "C101",
   "status": "partial",
   "theorems": [
    "Verif.Props.c101_filter",
    "Verif.Props.c101_exact",
    "Verif.Props.c101_total_partial",
    "Verif.Props.c101_sources_partial",
    "Verif.Props.c101_number_fails",
    "Verif.Props.c101_stem_fails",
    "Verif.Props.c101_details_fails"
   ],
   "note": "The full property fails for three filters (witnesses with a tokenizer that answers every text). c101_exact is the exact condition for every analyzer and text; c101_total_partial states totality without the number and stem filters, for words with enough details, and c101_sources_partial the same from source files and a user dictionary."
  },
  {
   "property": "C102",
   "status": "partial",
   "theorems": [
    "Verif.Props.c102_file_partial",
    "Verif.Props.c102_command_partial",
    "Verif.Props.c102_directory_exact",
    "Verif.Props.c102_user_exact",
    "Verif.Props.c102_tokenizer_exact",
    "Verif.Props.c102_file_exact",
    "Verif.Props.c102_command_exact",
    "Verif.Props.c102_matrix_fails",
    "Verif.Props.c102_rows_fails"
   ],
   "note": "Proved for configuration files and the command line, for all contents of all files, except for three causes of panics: a matrix shorter than its header (c102_matrix_fails, exact in c102_directory_exact), user rows with less than three columns (c102_rows_fails, exact in c102_user_exact) and tags with more than four parts (c66_long_tags_fails). c102_tokenizer_exact, c102_file_exact and c102_command_exact say exactly when tokenizers and analyzers panic: there is no fourth cause."
  },
  {
   "property": "C103",
   "status": "proved",
   "theorems": [
    "Verif.Props.c103_tokenize",
    "Verif.Props.c103_whole",
    "Verif.Props.c103_analyze",
    "Verif.Props.c103_file",
    "Verif.Props.c103_command"
   ],
   "note": "No hypothesis on the dictionary. Damaged double arrays are read by a total parameter (yada is not modelled); the dictionaries compiled into the program are a parameter that is assumed to end."
  },
  {
   "property": "C104",
   "status": "partial",
   "theorems": [
    "Verif.Props.c104_files_partial",
    "Verif.Props.c104_others",
    "Verif.Props.c104_same",
    "Verif.Props.c104_apart",
    "Verif.Props.c104_user",
    "Verif.Props.c104_moments",
    "Verif.Props.c104_faults_moments",
    "Verif.Props.c104_faults_partial",
    "Verif.Props.c104_faults_user",
    "Verif.Props.c104_mixed_fails",
    "Verif.Props.c104_killed_fails",
    "Verif.Props.c104_failed_fails",
    "Verif.Props.c104_reader_partial",
    "Verif.Props.c104_reader_fails"
   ],
   "note": "Missing because false in the code: builds of different sources into the same directory can mix their files (c104_mixed_fails), a program that is killed or whose calls fail among others that build the same can leave zeros in their files (c104_killed_fails, c104_failed_fails), and a load during a build can see a file that is not complete (c104_reader_fails). With failing calls: c104_faults_moments for every moment, c104_faults_partial and c104_faults_user if all programs report success (without dict.da, as in C61)."
  },
  {
   "property": "C105",
   "status": "proved",
   "theorems": [
    "Verif.Props.c105_words",
    "Verif.Props.c105_settings",
    "Verif.Props.c105_selected",
    "Verif.Props.c105_slices"
   ],
   "note": "For every dictionary and every combination of configured token filters; c105_words has no condition on character filters (both analyses return), c105_settings derives that the analysis without token filters returns from the contracts of the crates behind the character filters. c105_selected: without compound words the tokens are a sublist of the words, with other texts at most. c105_slices: without character filters and with filters that only put words together, the text of a token is the part of the text that its byte range names, and nothing is lost."
  },
  {
   "property": "C106",
   "status": "proved",
   "theorems": [
    "Verif.Props.c106_filtered",
    "Verif.Props.c106_errors",
    "Verif.Props.c106_same",
    "Verif.Props.c106_configured"
   ],
   "note": "c106_filtered, c106_errors, c106_same: no condition on filters, dictionary or text. c106_configured: for filters made from configurations the results agree also where the analysis fails, under the contracts of yada and regex. That offsets are led back to the right places is C32, C34, C37 and C38."
  },
  {
   "property": "C107",
   "status": "proved",
   "theorems": [
    "Verif.Props.c107_afterwards",
    "Verif.Props.c107_stages",
    "Verif.Props.c107_configured"
   ],
   "note": "Equality of results including errors and panics. c107_afterwards: arbitrary character filters, if the analysis without token filters returns; c107_configured: configured character filters, without condition, under the contracts of yada and regex."
  },
  {
   "property": "C11",
   "status": "proved",
   "theorems": [
    "Verif.Props.c11_normal",
    "Verif.Props.c11_words",
    "Verif.Props.c11_decompose",
    "Verif.Props.c11_monotone"
   ],
   "note": "Word length is UTF-8 bytes divided by three, as in the code; for kanji words that is the number of characters (c11_words)."
  },
  {
   "property": "C12",
   "status": "proved",
   "theorems": [
    "Verif.Props.c12_maximal_run"
   ],
   "note": "Over the edges of the lattice after set_text."
  },
  {
   "property": "C13",
   "status": "proved",
   "theorems": [
    "Verif.Props.c13_when_unknown"
   ],
   "note": "Over the edges of the lattice after set_text."
  },
  {
   "property": "C14",
   "status": "proved",
   "theorems": [
    "Verif.Props.c14_user_words"
   ],
   "note": ""
  },
  {
   "property": "C15",
   "status": "partial",
   "theorems": [
    "Verif.Props.c15_offsets_partial",
    "Verif.Props.c15_offsets_after_dropped_fails",
    "Verif.Props.c15_shift"
   ],
   "note": "The code violates the claim (witness proved); true when every sentence has a segmentation. In general offsets are too small by exactly the length of the dropped sentences before the token (c15_shift)."
  },
  {
   "property": "C16",
   "status": "proved",
   "theorems": [
    "Verif.Props.c16_roundtrip",
    "Verif.Props.c16_injective"
   ],
   "note": "ten bytes, read back whatever follows; the flag comes from the dictionary"
  },
  {
   "property": "C17",
   "status": "proved",
   "theorems": [
    "Verif.Props.c17_prefix",
    "Verif.Props.c17_find_surface"
   ],
   "note": "under the contract of the external double-array builder (Spec.YadaContract) and Spec.Fits; CSV syntax not modelled"
  },
  {
   "property": "C18",
   "status": "proved",
   "theorems": [
    "Verif.Props.c18_details",
    "Verif.Props.c18_total",
    "Verif.Props.c18_no_details_fails",
    "Verif.Props.c18_nul_fails"
   ],
   "note": "rows with at least one NUL-free detail column; the two _fails theorems show the excluded cases"
  },
  {
   "property": "C19",
   "status": "proved",
   "theorems": [
    "Verif.Props.c19_skipped",
    "Verif.Props.c19_reported"
   ],
   "note": "compares the build with skipping against the build of the file without the unreadable rows"
  },
  {
   "property": "C20",
   "status": "proved",
   "theorems": [
    "Verif.Props.c20_matrix",
    "Verif.Props.c20_any",
    "Verif.Props.c20_bad_number",
    "Verif.Props.c20_blank_line_fails"
   ],
   "note": "Backward size below 2^15; c20_any says exactly what lookups give for every size. c20_bad_number: a token that is not a number is reported. c20_blank_line_fails: a blank line makes the compiler panic (outside the statement)."
  },
  {
   "property": "C21",
   "status": "proved",
   "theorems": [
    "Verif.Props.c21_categories",
    "Verif.Props.c21_c22_no_panic",
    "Verif.Props.mem_categoriesOf"
   ],
   "note": "Stated by category names through category_name, for every well-formed file (readDef) and every character; mem_categoriesOf characterises the specification function."
  },
  {
   "property": "C22",
   "status": "partial",
   "theorems": [
    "Verif.Props.c22_flags_partial",
    "Verif.Props.c22_exact",
    "Verif.Props.c22_order_fails",
    "Verif.Props.c22_repeated_fails",
    "Verif.Props.c22_undefined_fails"
   ],
   "note": "The code violates it: flags are stored by definition order, ids are given by first mention. Proved for files that define every category once before it is mentioned by a range. c22_exact says for every accepted file which flags each category gets."
  },
  {
   "property": "C23",
   "status": "proved",
   "theorems": [
    "Verif.Props.c23_hash_order"
   ],
   "note": "For every text that parses."
  },
  {
   "property": "C24",
   "status": "proved",
   "theorems": [
    "Verif.Props.c24_unknown_words",
    "Verif.Props.c24_rejects"
   ],
   "note": "Files with at most 2^32 lines; ids and costs fit 16 bits, see C54 for the others."
  },
  {
   "property": "C25",
   "status": "proved",
   "theorems": [
    "Verif.Props.c25_char_defs",
    "Verif.Props.c25_unk_dict",
    "Verif.Props.c25_user_dict",
    "Verif.Props.c25_injective"
   ],
   "note": "Typed: lengths fit usize as in Rust. The double array is its bytes (Faithful)."
  },
  {
   "property": "C26",
   "status": "proved",
   "theorems": [
    "Verif.Props.c26_char_defs",
    "Verif.Props.c26_unk_dict",
    "Verif.Props.c26_user_dict"
   ],
   "note": "Every strict prefix of the serialized bytes."
  },
  {
   "property": "C27",
   "status": "proved",
   "theorems": [
    "Verif.Props.c27_roundtrip",
    "Verif.Props.c27_container",
    "Verif.Props.c27_written_file",
    "Verif.Props.c27_truncated"
   ],
   "note": "flate2's own round trip is a contract (FlateContract)."
  },
  {
   "property": "C28",
   "status": "proved",
   "theorems": [
    "Verif.Props.c28_find_surface",
    "Verif.Props.c28_prefix",
    "Verif.Props.c28_details_total"
   ],
   "note": "For the five dictionary kinds; CSV splitting is outside the model."
  },
  {
   "property": "C29",
   "status": "partial",
   "theorems": [
    "Verif.Props.c29_reported_partial",
    "Verif.Props.c29_short_row_fails",
    "Verif.Props.c29_accepted",
    "Verif.Props.c29_panics_exact",
    "Verif.Props.c29_panic_exact",
    "Verif.Props.c29_parse_exact",
    "Verif.Props.c29_content_exact"
   ],
   "note": "Rows with one or two columns panic (c29_short_row_fails); all other malformed rows are reported. c29_panic_exact, c29_parse_exact and c29_content_exact say for every list of rows exactly when the build panics and when it returns each error; c29_panics_exact is the simpler condition when all numbers can be read. No malformed row is ever accepted (c29_accepted)."
  },
  {
   "property": "C30",
   "status": "proved",
   "theorems": [
    "Verif.Props.c30_first",
    "Verif.Props.c30_history",
    "Verif.Props.c30_frame"
   ],
   "note": ""
  },
  {
   "property": "C31",
   "status": "proved",
   "theorems": [
    "Verif.Props.c31_longest_match"
   ],
   "note": "Every mapping with a key, distinct non-empty keys without NUL; yada by contract."
  },
  {
   "property": "C32",
   "status": "proved",
   "theorems": [
    "Verif.Props.c32_mapping",
    "Verif.Props.c32_unicode_normalize"
   ],
   "note": "Grapheme segmentation and normal forms are parameters (non-empty clusters that make up the text); the regular expression filter is C34."
  },
  {
   "property": "C33",
   "status": "proved",
   "theorems": [
    "Verif.Props.c33_mapping",
    "Verif.Props.c33_unicode_normalize",
    "Verif.Props.c33_regex"
   ],
   "note": "Regex: literal replacement and non-empty matches, as in the property's quantifier."
  },
  {
   "property": "C34",
   "status": "partial",
   "theorems": [
    "Verif.Props.c34_text",
    "Verif.Props.c34_expansion",
    "Verif.Props.c34_empty_match_fails",
    "Verif.Props.c34_capture_fails",
    "Verif.Props.c34_same_length_partial",
    "Verif.Props.c34_literal_partial",
    "Verif.Props.c34_empty_exact",
    "Verif.Props.c34_table"
   ],
   "note": "Violated by the code: empty matches give 2^64-1, capture references give wrong lengths. The filtered text is right for every replacement (c34_text). The partial theorems cover the offsets for replacements that stand for texts of their own length, in particular literal ones, and boundaries not before an empty match; c34_empty_exact says what the remaining boundaries are mapped to. c34_table says what every offset is mapped to, for every replacement, when no match is empty. The matcher is a parameter."
  },
  {
   "property": "C35",
   "status": "partial",
   "theorems": [
    "Verif.Props.c35_fails",
    "Verif.Props.c35_boundaries_partial",
    "Verif.Props.c35_exact",
    "Verif.Props.c35_ascii_pieces",
    "Verif.Props.c35_ascii_keys"
   ],
   "note": "Violated by the code for tokens inside a replacement; holds if the token's ends are piece boundaries. c35_exact is the exact condition; c35_ascii_keys: it always holds with one mapping filter whose keys are ASCII."
  },
  {
   "property": "C36",
   "status": "proved",
   "theorems": [
    "Verif.Props.c36_expand",
    "Verif.Props.c36_groups"
   ],
   "note": "Also says what happens if fewer characters precede than marks follow."
  },
  {
   "property": "C37",
   "status": "partial",
   "theorems": [
    "Verif.Props.c37_fails",
    "Verif.Props.c37_three_bytes_partial",
    "Verif.Props.c37_exact"
   ],
   "note": "Violated by the code (a々); holds if repeated characters take three bytes. This is exactly the condition (c37_exact)."
  },
  {
   "property": "C38",
   "status": "proved",
   "theorems": [
    "Verif.Props.c38_chain",
    "Verif.Props.c38_traced",
    "Verif.Props.c38_range",
    "Verif.Props.c38_mapping_filtered",
    "Verif.Props.c38_unicode_normalize_filtered",
    "Verif.Props.c38_regex_filtered",
    "Verif.Props.c38_iteration_mark_filtered"
   ],
   "note": "For chains of filters with right tables; the last four theorems show which filters qualify."
  },
  {
   "property": "C39",
   "status": "proved",
   "theorems": [
    "Verif.Props.c39_words"
   ],
   "note": "Also: the kept and the stopped tokens together are a permutation of the input."
  },
  {
   "property": "C40",
   "status": "partial",
   "theorems": [
    "Verif.Props.c40_japanese_tags_partial",
    "Verif.Props.c40_korean_tags",
    "Verif.Props.c40_long_tag_fails",
    "Verif.Props.c40_no_details_fails",
    "Verif.Props.c40_new_exact",
    "Verif.Props.c40_apply_exact"
   ],
   "note": "For tags of at most four parts and tokens with details. Building the filter panics on longer tags (c40_long_tag_fails); tokens without details panic (c40_no_details_fails). The exact conditions for returning are c40_new_exact and c40_apply_exact."
  },
  {
   "property": "C41",
   "status": "proved",
   "theorems": [
    "Verif.Props.c41_length"
   ],
   "note": ""
  },
  {
   "property": "C42",
   "status": "partial",
   "theorems": [
    "Verif.Props.c42_compound_partial",
    "Verif.Props.c42_long_tag_fails",
    "Verif.Props.c42_new_exact",
    "Verif.Props.c42_apply_exact"
   ],
   "note": "For tags of at most four parts and tokens with details; longer tags panic (c42_long_tag_fails). Exact conditions for returning: c42_new_exact, c42_apply_exact."
  },
  {
   "property": "C43",
   "status": "proved",
   "theorems": [
    "Verif.Props.c43_numerals",
    "Verif.Props.c43_printed",
    "Verif.Props.c43_number_filter"
   ],
   "note": "KanjiNumeral (Spec/TokenFilter.lean) is the grammar of numerals with optional 一 before 十, 百, 千."
  },
  {
   "property": "C44",
   "status": "partial",
   "theorems": [
    "Verif.Props.c44_fails",
    "Verif.Props.c44_wrong_value",
    "Verif.Props.c44_prefix_partial",
    "Verif.Props.c44_exact",
    "Verif.Props.c44_filter_exact"
   ],
   "note": "False as stated: c44_fails gives an infinite family of panicking texts, c44_wrong_value silently wrong results. c44_exact and c44_filter_exact give the exact condition for returning (every unit has places for what follows it); c44_prefix_partial covers the value of unit-free text followed by a numeral."
  },
  {
   "property": "C45",
   "status": "proved",
   "theorems": [
    "Verif.Props.c45_digits",
    "Verif.Props.c45_unique"
   ],
   "note": ""
  },
  {
   "property": "C46",
   "status": "partial",
   "theorems": [
    "Verif.Props.c46_stem_partial",
    "Verif.Props.c46_no_block_fails",
    "Verif.Props.c46_not_idempotent",
    "Verif.Props.c46_exact"
   ],
   "note": "The table of Unicode blocks is a parameter. Characters in no block make the filter panic (c46_no_block_fails). Exact condition for returning: c46_exact."
  },
  {
   "property": "C47",
   "status": "proved",
   "theorems": [
    "Verif.Props.c47_only_text"
   ],
   "note": "For every behaviour of the library functions (case mapping, kana conversion, block table)."
  },
  {
   "property": "C48",
   "status": "proved",
   "theorems": [
    "Verif.Props.c48_plain"
   ],
   "note": ""
  },
  {
   "property": "C49",
   "status": "proved",
   "theorems": [
    "Verif.Props.c49_kind_names",
    "Verif.Props.c49_json_names",
    "Verif.Props.c49_mode_names"
   ],
   "note": "All kinds and modes, both directions, through FromStr and serde."
  },
  {
   "property": "C50",
   "status": "proved",
   "theorems": [
    "Verif.Props.c50_kind",
    "Verif.Props.c50_path",
    "Verif.Props.c50_user",
    "Verif.Props.c50_tokenizer"
   ],
   "note": "Dictionary selection by kind and path and of the user dictionary, for every environment."
  },
  {
   "property": "C51",
   "status": "proved",
   "theorems": [
    "Verif.Props.c51_members",
    "Verif.Props.c51_order",
    "Verif.Props.c51_rejected",
    "Verif.Props.c51_other"
   ],
   "note": "JSON at the level of the parsed tree (the text: C84); serde derive and serde_json semantics modelled in Model/Json."
  },
  {
   "property": "C52",
   "status": "partial",
   "theorems": [
    "Verif.Props.c52_roundtrip_partial",
    "Verif.Props.c52_fails",
    "Verif.Props.c52_exact"
   ],
   "note": "Serialized configurations load back unchanged when a user dictionary is configured. A configuration without one is written with null for it, which cannot be read back: c52_fails. c52_exact: it survives exactly if a user dictionary is configured and all paths are UTF-8."
  },
  {
   "property": "C53",
   "status": "partial",
   "theorems": [
    "Verif.Props.c53_mecab",
    "Verif.Props.c53_mecab_unambiguous",
    "Verif.Props.c53_wakati_partial",
    "Verif.Props.c53_wakati_empty_fails",
    "Verif.Props.c53_wakati_exact",
    "Verif.Props.c53_json",
    "Verif.Props.c53_session",
    "Verif.Props.c53_formats",
    "Verif.Props.c53_list"
   ],
   "note": "mecab and json for every token list; wakati prints nothing for an empty list. (exactly then: c53_wakati_exact)"
  },
  {
   "property": "C54",
   "status": "partial",
   "theorems": [
    "Verif.Props.c54_homographs_fails",
    "Verif.Props.c54_within_limits_partial",
    "Verif.Props.c54_lookup",
    "Verif.Props.c54_exact",
    "Verif.Props.c54_prefix",
    "Verif.Props.c54_user",
    "Verif.Props.c54_tokens",
    "Verif.Props.c20_large_backward_fails",
    "Verif.Props.c20_any",
    "Verif.Props.c24_wide_fails"
   ],
   "note": "The code violates it: 32 homographs build without error and are then not found; a matrix with backward size 32768 builds and then lookups panic; unk.def ids of 65536 and more are truncated. Proved: within the limits nothing is lost (also c20_matrix, c24_unknown_words). Beyond the limit on homographs the exact result is proved for system and user dictionaries (n mod 32 of n words are found, never others, so all exactly if n < 32) and for tokenization (every text is answered as if the sources contained only the kept words), and for matrices of every size which lookups are right. Truncation in unk.def is described exactly by C69."
  },
  {
   "property": "C55",
   "status": "partial",
   "theorems": [
    "Verif.Props.c55_forms_partial",
    "Verif.Props.c55_other_kinds",
    "Verif.Props.c55_short_details_fails",
    "Verif.Props.c55_exact"
   ],
   "note": "For tokens that are unknown words or have the form column; shorter details panic (c55_short_details_fails). Exact condition for returning: c55_exact."
  },
  {
   "property": "C56",
   "status": "proved",
   "theorems": [
    "Verif.Props.c56_mapping_tokens"
   ],
   "note": "yada (double-array builder) under YadaContract."
  },
  {
   "property": "C57",
   "status": "proved",
   "theorems": [
    "Verif.Props.c57_in_directory",
    "Verif.Props.c57_output_file",
    "Verif.Props.c57_round_trip"
   ],
   "note": "File system without faults and links; CSV splitting (see C80) and the double-array crate as parameters."
  },
  {
   "property": "C58",
   "status": "proved",
   "theorems": [
    "Verif.Props.c58_lines",
    "Verif.Props.c58_columns",
    "Verif.Props.c58_words",
    "Verif.Props.c58_numbers",
    "Verif.Props.c58_order",
    "Verif.Props.c58_unique",
    "Verif.Props.c58_decimal",
    "Verif.Props.c58_row",
    "Verif.Props.c58_user_row"
   ],
   "note": "The standard library functions the parsers call are modelled in Model/Text; these theorems state that they read and compare texts as the relations of Spec/Text say. The contents of char.def, unk.def and matrix.def are related to their texts in the hypotheses of C20, C21, C22 and C24. Splitting CSV records is the subject of C80."
  },
  {
   "property": "C59",
   "status": "partial",
   "theorems": [
    "Verif.Props.c59_build",
    "Verif.Props.c59_success",
    "Verif.Props.c59_errors_partial",
    "Verif.Props.c59_errors_fails",
    "Verif.Props.c59_errors_exact"
   ],
   "note": "proved except that source errors are panics with the Korean and Chinese builders, which unwrap each step (c59_errors_fails; c59_errors_exact gives the result for every builder)"
  },
  {
   "property": "C60",
   "status": "proved",
   "theorems": [
    "Verif.Props.c60_load",
    "Verif.Props.c60_embedded",
    "Verif.Props.c60_compressed"
   ],
   "note": "loading from a path never decompresses, so c60_load is stated for builders without the feature compress (with Cargo's resolver 2 the builders inside the CLI never have it); embedded files for both settings; compressed directories are refused"
  },
  {
   "property": "C61",
   "status": "partial",
   "theorems": [
    "Verif.Props.c61_reported_partial",
    "Verif.Props.c61_reported_fails",
    "Verif.Props.c61_reported_exact"
   ],
   "note": "false for dict.da: its buffered writer is never flushed explicitly, so a failing write when it is dropped is lost (c61_reported_fails); proved for the six other files, and that the last write to dict.da is the only call whose failure is not reported"
  },
  {
   "property": "C62",
   "status": "partial",
   "theorems": [
    "Verif.Props.c62_files",
    "Verif.Props.c62_order",
    "Verif.Props.c62_fresh_partial",
    "Verif.Props.c62_failed",
    "Verif.Props.c62_truncated_fails",
    "Verif.Props.c62_mixed_fails",
    "Verif.Props.c62_fresh_exact",
    "Verif.Props.c62_fresh_compressed"
   ],
   "note": "files and order proved; that the result never loads is false: a cut connection matrix loads, and a rebuilt directory may mix old and new files. For a new directory the outcome is given exactly: it fails to load, or every text is tokenized as with the complete dictionary or panics"
  },
  {
   "property": "C63",
   "status": "proved",
   "theorems": [
    "Verif.Props.c63_succeeds",
    "Verif.Props.c63_reported",
    "Verif.Props.c63_interrupted"
   ],
   "note": ""
  },
  {
   "property": "C64",
   "status": "proved",
   "theorems": [
    "Verif.Props.c64_source_semantics",
    "Verif.Props.c64_well_formed",
    "Verif.Props.c64_lossless"
   ],
   "note": "Hypotheses on the sources: Says (the files are read as these contents; c64_well_formed shows it for files as documented, and C69 and C74 show that every accepted file is read as some contents) and Good (they fit together), both stated on the decoded texts and CSV records in Spec/Language.lean. The double-array library enters through YadaContract; CSV record splitting and character decoding are parameters. Least cost is claimed for sentences whose costs cannot overflow 32 bits (NoOverflow), as in C07."
  },
  {
   "property": "C65",
   "status": "proved",
   "theorems": [
    "Verif.Props.c65_built_and_loaded",
    "Verif.Props.c65_embedded"
   ],
   "note": "directories without compression, embedded files with or without; fault-free run (faults and crashes: C61, C62); Faithful: the double array's file contents determine it."
  },
  {
   "property": "C66",
   "status": "partial",
   "theorems": [
    "Verif.Props.c66_char",
    "Verif.Props.c66_token_partial",
    "Verif.Props.c66_char_effect_partial",
    "Verif.Props.c66_token_effect_partial",
    "Verif.Props.c66_long_tags_fails",
    "Verif.Props.c66_panic_exact"
   ],
   "note": "The argument forms are characterized by the specifications CharSetting and TokenSetting, the behaviour by CharCut/Filtered and TokenEffect. Tags with more than four parts panic while the configuration is read (c66_long_tags_fails, exactly when in c66_panic_exact); the effects are claimed for the inputs on which C34, C37, C40, C44, C46 and C55 hold. JSON text parsing, regular expressions, grapheme clusters, normal forms, case mappings, kana conversion and Unicode blocks are parameters."
  },
  {
   "property": "C67",
   "status": "partial",
   "theorems": [
    "Verif.Props.c67_analyzer",
    "Verif.Props.c67_same",
    "Verif.Props.c67_errors",
    "Verif.Props.c67_ignored_fails"
   ],
   "note": "c67_analyzer is an equivalence for all documents. The last sentence of the claim is violated: entries without a string kind and lists that are not arrays are ignored silently (c67_ignored_fails). Files are bytes; JSON text as in C84. The dictionary loading is that of C50."
  },
  {
   "property": "C68",
   "status": "partial",
   "theorems": [
    "Verif.Props.c68_flag",
    "Verif.Props.c68_same",
    "Verif.Props.c68_session",
    "Verif.Props.c68_failure",
    "Verif.Props.c68_bare_flag_fails"
   ],
   "note": "Violated for filters named without arguments: the empty text after the kind is parsed as JSON and rejected (c68_bare_flag_fails). Parsing of the command line by clap is not modelled; JSON text as in C84; the feature filter is on."
  },
  {
   "property": "C69",
   "status": "partial",
   "theorems": [
    "Verif.Props.c69_char_def",
    "Verif.Props.c69_char_def_well_formed",
    "Verif.Props.c69_surrogate_fails",
    "Verif.Props.c69_surrogate_category_fails",
    "Verif.Props.c69_unk",
    "Verif.Props.c69_matrix_partial",
    "Verif.Props.c69_matrix_fails"
   ],
   "note": "For every text: char.def and unk.def are accepted exactly in the described forms, all other texts are errors without a panic. Violations: a surrogate as limit of a range is taken for U+FFFD (c69_surrogate_fails), matrix.def panics on short lines and ids outside of the matrix (c69_matrix_fails describes all these cases)."
  },
  {
   "property": "C70",
   "status": "proved",
   "theorems": [
    "Verif.Props.c70_analyze",
    "Verif.Props.c70_from_files",
    "Verif.Props.c70_embedded"
   ],
   "note": "composition of building, loading, configuration, filters and tokenization; the effect of the filters on texts and tokens they are not made for is in C44, C46, C55, C66"
  },
  {
   "property": "C71",
   "status": "partial",
   "theorems": [
    "Verif.Props.c71_tokenize_partial",
    "Verif.Props.c71_embedded",
    "Verif.Props.c71_user_csv_fails"
   ],
   "note": "violated by the code: a CSV user dictionary cannot be used with a dictionary directory; proved for compiled user dictionaries and without one, and for embedded dictionaries with any user dictionary"
  },
  {
   "property": "C72",
   "status": "proved",
   "theorems": [
    "Verif.Props.c72_local",
    "Verif.Props.c72_unique",
    "Verif.Props.c72_added_word",
    "Verif.Props.c72_unused_user"
   ],
   "note": "Words are compared per surface, in file order, with all their columns; word numbers may differ."
  },
  {
   "property": "C73",
   "status": "proved",
   "theorems": [
    "Verif.Props.c73_file_order",
    "Verif.Props.c73_reproducible"
   ],
   "note": "An example shows that a word in two files makes the order matter."
  },
  {
   "property": "C74",
   "status": "partial",
   "theorems": [
    "Verif.Props.c74_success",
    "Verif.Props.c74_accepted",
    "Verif.Props.c74_exact",
    "Verif.Props.c74_reported_partial",
    "Verif.Props.c74_unwrap_fails",
    "Verif.Props.c74_short_record_fails",
    "Verif.Props.c74_matrix_fails"
   ],
   "note": "The equivalence is proved in full for words within the limits of the format, however many share a surface (FitsApart). The claim that everything else is reported is violated: panics for records with less than four columns, for bad matrices, and for all errors of the Korean and Chinese builders; c74_reported_partial shows that these are all. Failures of glob are not modelled."
  },
  {
   "property": "C75",
   "status": "partial",
   "theorems": [
    "Verif.Props.c75_archive",
    "Verif.Props.c75_cache_kept",
    "Verif.Props.c75_recovers",
    "Verif.Props.c75_tokenizes",
    "Verif.Props.c75_success_partial",
    "Verif.Props.c75_no_leftover",
    "Verif.Props.c75_success_cache",
    "Verif.Props.c75_offline",
    "Verif.Props.c75_refused",
    "Verif.Props.c75_docs",
    "Verif.Props.c75_docs_again_fails",
    "Verif.Props.c75_docs_mix_fails",
    "Verif.Props.c75_rename_fails"
   ],
   "note": "Proved for all histories of normal runs (the archive part also for docs.rs runs), up to the tokens of a program that embeds the result. Violated: dict.da can be torn in a run that reports success (as C61), a second docs.rs run fails, a normal run after a docs.rs run also compiles the dummy word list, and a failing rename panics."
  },
  {
   "property": "C76",
   "status": "proved",
   "theorems": [
    "Verif.Props.c76_penalties",
    "Verif.Props.c76_short"
   ],
   "note": "for consistent dictionaries and texts whose costs stay within i32"
  },
  {
   "property": "C77",
   "status": "partial",
   "theorems": [
    "Verif.Props.c77_superset",
    "Verif.Props.c77_cost",
    "Verif.Props.c77_short_partial",
    "Verif.Props.c77_short_fails",
    "Verif.Props.c77_short_exact",
    "Verif.Props.c77_short_sources",
    "Verif.Props.c77_known"
   ],
   "note": "the choice and cost statements are proved in full; the same result for texts without long tokens is proved if no reachable byte lies inside the unknown word proposed last, or if decompose mode gives no unknown words, and shown to fail otherwise; c77_short_exact is the exact condition"
  },
  {
   "property": "C78",
   "status": "partial",
   "theorems": [
    "Verif.Props.c78_select",
    "Verif.Props.c78_forms",
    "Verif.Props.c78_compound",
    "Verif.Props.c78_number",
    "Verif.Props.c78_conversions",
    "Verif.Props.c78_mapping_partial",
    "Verif.Props.c78_mapping_fails",
    "Verif.Props.c78_stem_fails",
    "Verif.Props.c78_analyzer",
    "Verif.Props.c78_stem_exact"
   ],
   "note": "All token filters; false of the katakana stem filter (exact condition given) and of mappings whose output contains keys (witnesses); case and kana conversions exactly if the library function is idempotent."
  },
  {
   "property": "C79",
   "status": "proved",
   "theorems": [
    "Verif.Props.c79_select",
    "Verif.Props.c79_tags",
    "Verif.Props.c79_analyzer",
    "Verif.Props.c79_fails"
   ],
   "note": "c79_fails shows that the other pairs (word or length filters with text-rewriting ones, two text-rewriting ones, compound words) depend on the order."
  },
  {
   "property": "C80",
   "status": "proved",
   "theorems": [
    "Verif.Props.c80_read",
    "Verif.Props.c80_writable",
    "Verif.Props.c80_unambiguous",
    "Verif.Props.c80_plain",
    "Verif.Props.c80_texts_accepted",
    "Verif.Props.c80_rectangular",
    "Verif.Props.c80_not_utf8",
    "Verif.Props.c80_not_utf8_fails",
    "Verif.Props.c80_file",
    "Verif.Props.c80_directory",
    "Verif.Props.c80_user"
   ],
   "note": "About a model of the external crate csv, written from its documentation. c80_directory gives the hypotheses of C64, C65, C70 and C71 from raw files. c80_not_utf8_fails shows why the claim about UTF-8 is restricted to files without quotes."
  },
  {
   "property": "C81",
   "status": "proved",
   "theorems": [
    "Verif.Props.c81_crowded",
    "Verif.Props.c81_conditions",
    "Verif.Props.c81_compiled",
    "Verif.Props.c81_penalties",
    "Verif.Props.c81_loaded",
    "Verif.Props.c81_embedded"
   ],
   "note": "for the assumptions on the external crates of C64 and C65"
  },
  {
   "property": "C82",
   "status": "proved",
   "theorems": [
    "Verif.Props.c82_unique",
    "Verif.Props.c82_answers",
    "Verif.Props.c82_fitting",
    "Verif.Props.c82_sources",
    "Verif.Props.c82_same"
   ],
   "note": "For the assumptions on the external crates of C64 and C65 (the double-array builder, decoding, CSV records). c82_answers and c82_same apply to every tokenizer of c64_source_semantics and of c65 (loaded and embedded dictionaries), since AnsweredBy now includes the rule for ties."
  },
  {
   "property": "C83",
   "status": "proved",
   "theorems": [
    "Verif.Props.c83_document",
    "Verif.Props.c83_session"
   ],
   "note": "serde_json's printing is modelled (Model/JsonText). The grammar is the separate specification Spec/JsonText. Byte offsets are assumed to fit in 64 bits, as usize does."
  },
  {
   "property": "C84",
   "status": "proved",
   "theorems": [
    "Verif.Props.c84_read",
    "Verif.Props.c84_unique",
    "Verif.Props.c84_layout",
    "Verif.Props.c84_rejected",
    "Verif.Props.c84_rewritten"
   ],
   "note": "serde_json's parsing is modelled (Model/JsonText); the limit of 127 levels is part of the claim. Which numbers beyond 64-bit integers are too large for f64 is a parameter; c84_rewritten is for documents without such numbers."
  },
  {
   "property": "C85",
   "status": "proved",
   "theorems": [
    "Verif.Props.c85_compile",
    "Verif.Props.c85_files",
    "Verif.Props.c85_calls"
   ],
   "note": "For equal behaviour of yada, encoding_rs, csv and flate2 in both runs."
  },
  {
   "property": "C86",
   "status": "proved",
   "theorems": [
    "Verif.Props.c86_tokenizer",
    "Verif.Props.c86_tokenize"
   ],
   "note": "Assumes the contracts of yada, flate2 and the storage format, as C65 does; the loading program is without the builder feature compress."
  },
  {
   "property": "C87",
   "status": "proved",
   "theorems": [
    "Verif.Props.c87_unique",
    "Verif.Props.c87_analyze",
    "Verif.Props.c87_output"
   ],
   "note": "Up to word ids, which the specification does not mention (C08, C86 cover them). The costs of the sentences must fit into 32 bits (C07, C94)."
  },
  {
   "property": "C88",
   "status": "proved",
   "theorems": [
    "Verif.Props.c88_cheaper",
    "Verif.Props.c88_unused",
    "Verif.Props.c88_connections",
    "Verif.Props.c88_row",
    "Verif.Props.c88_user_row"
   ],
   "note": "Compiled from sources, end to end. c88_row and c88_user_row show that editing the cost in one row is such a change. c88_cheaper counts the tokens that show the word's text and details, so the word must be distinguishable by them from other words."
  },
  {
   "property": "C89",
   "status": "proved",
   "theorems": [
    "Verif.Props.c89_penalty",
    "Verif.Props.c89_tradeoff",
    "Verif.Props.c89_kanji",
    "Verif.Props.c89_other",
    "Verif.Props.c89_both"
   ],
   "note": "For every complete dictionary; compiled dictionaries are complete (C81)."
  },
  {
   "property": "C90",
   "status": "proved",
   "theorems": [
    "Verif.Props.c90_same",
    "Verif.Props.c90_moved",
    "Verif.Props.c90_unused",
    "Verif.Props.c90_dominated",
    "Verif.Props.c90_duplicate",
    "Verif.Props.c90_row"
   ],
   "note": "Proved end to end from source files to tokens, for all modes and texts whose sentences do not overflow 32-bit costs."
  },
  {
   "property": "C91",
   "status": "partial",
   "theorems": [
    "Verif.Props.c91_compound_partial",
    "Verif.Props.c91_decompose_partial",
    "Verif.Props.c91_general",
    "Verif.Props.c91_record",
    "Verif.Props.c91_fails",
    "Verif.Props.c91_normal_fails"
   ],
   "note": "False in general (witnesses in both modes; in normal mode even for words that hide no unknown words). Proved for words whose text can be cut into words already there, and in decompose mode for words that hide no unknown words of the text. For every word: the tokens stay the same, or show the word, or the word changes which unknown words are looked for in a sentence of the text."
  },
  {
   "property": "C92",
   "status": "proved",
   "theorems": [
    "Verif.Props.c92_segmentation",
    "Verif.Props.c92_tokens",
    "Verif.Props.c92_answers"
   ],
   "note": "for sources given by the specification of C82; the spec Renamed relates the two lexicons; examples with a 4x3 matrix instead of a 2x2 one"
  },
  {
   "property": "C93",
   "status": "proved",
   "theorems": [
    "Verif.Props.c93_meaning",
    "Verif.Props.c93_reordered",
    "Verif.Props.c93_overlap_matters"
   ],
   "note": "for sources given by the specification of C82; examples with reordered files and with a range cut into two"
  },
  {
   "property": "C94",
   "status": "proved",
   "theorems": [
    "Verif.Props.c94_bounds",
    "Verif.Props.c82_fitting",
    "Verif.Props.c94_fails"
   ],
   "note": "c82_fitting is the general statement, c94_bounds a condition that can be read off the files, c94_fails shows that the condition is needed."
  },
  {
   "property": "C95",
   "status": "proved",
   "theorems": [
    "Verif.Props.c95_char",
    "Verif.Props.c95_token",
    "Verif.Props.c95_char_text",
    "Verif.Props.c95_token_text",
    "Verif.Props.c95_value_text",
    "Verif.Props.c95_repeated",
    "Verif.Props.c95_fails"
   ],
   "note": "c95_fails shows that the plain equality, without the exceptions named in the statement, is false."
  },
  {
   "property": "C96",
   "status": "partial",
   "theorems": [
    "Verif.Props.c96_in_order_partial",
    "Verif.Props.c96_settings_partial",
    "Verif.Props.c96_plain",
    "Verif.Props.c96_positions",
    "Verif.Props.c96_sequence",
    "Verif.Props.c96_fails",
    "Verif.Props.c96_capture_fails",
    "Verif.Props.c96_empty_match_fails"
   ],
   "note": "Proved in full without character filters (c96_plain), and with character filters whenever they accept the text (the conditions of C34 and C37). The positions are in order without any condition (c96_positions). The order of the byte ranges (everything but the end of the text) is proved for every text and every combination of configured filters, also where offsets are wrong, as long as no pattern matches the empty text (c96_sequence). Violated by the iteration mark filter when a four-byte character is repeated (c96_fails), by replacements with references to groups (c96_capture_fails: a range ends after the text) and by patterns that match the empty text (c96_empty_match_fails: the order is lost)."
  },
  {
   "property": "C97",
   "status": "proved",
   "theorems": [
    "Verif.Props.c97_edges",
    "Verif.Props.c97_numbers"
   ],
   "note": "Upper bounds on the number of edges for every sentence, mode and history; the numbers of the edges fit into u32 when the linear bound does. The cost of allocation itself is not modelled."
  },
  {
   "property": "C98",
   "status": "proved",
   "theorems": [
    "Verif.Props.c98_dropped",
    "Verif.Props.c98_all",
    "Verif.Props.c98_same_text_fails"
   ],
   "note": "For every kind of character filter (mappings as in C31, grapheme clusters that partition the text). c98_same_text_fails shows that an unchanged text alone would not be enough."
  },
  {
   "property": "C99",
   "status": "partial",
   "theorems": [
    "Verif.Props.c99_parts_partial",
    "Verif.Props.c99_mappings",
    "Verif.Props.c99_normalize",
    "Verif.Props.c99_regex",
    "Verif.Props.c99_no_compound_partial",
    "Verif.Props.c99_compound_fails",
    "Verif.Props.c99_removed_fails",
    "Verif.Props.c99_iteration_mark_fails"
   ],
   "note": "Proved whenever the character filters treat the two parts separately (conditions given for mappings, normalization and regular expressions) and no compound word reaches across the border; without conditions on the texts for mappings that do not concern the delimiter and remove nothing. The claim is violated by compound words, by mappings that remove text and by iteration marks (witnesses)."
  }
 ]
}
