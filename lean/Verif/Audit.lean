import Verif.Props.Acceptance
import Verif.Props.Accepted
import Verif.Props.Added
import Verif.Props.Afterwards
import Verif.Props.Analyzer
import Verif.Props.AnalyzerConfig
import Verif.Props.BuildDir
import Verif.Props.BuildScript
import Verif.Props.Builder
import Verif.Props.CharDef
import Verif.Props.CharFilter
import Verif.Props.Cli
import Verif.Props.Compiled
import Verif.Props.Config
import Verif.Props.CrateBuild
import Verif.Props.Csv
import Verif.Props.Determined
import Verif.Props.EndToEnd
import Verif.Props.Ends
import Verif.Props.Exact
import Verif.Props.Excess
import Verif.Props.FilterOrder
import Verif.Props.FilterSlice
import Verif.Props.Filtering
import Verif.Props.Homographs
import Verif.Props.InOrder
import Verif.Props.Inert
import Verif.Props.JsonText
import Verif.Props.Language
import Verif.Props.Lattice
import Verif.Props.Locality
import Verif.Props.Long
import Verif.Props.Matrix
import Verif.Props.Modes
import Verif.Props.ModesExact
import Verif.Props.NumberLimits
import Verif.Props.OffsetsExact
import Verif.Props.Panics
import Verif.Props.Parts
import Verif.Props.Renamed
import Verif.Props.Reordered
import Verif.Props.Reported
import Verif.Props.Repriced
import Verif.Props.Reproducible
import Verif.Props.Returns
import Verif.Props.Rows
import Verif.Props.Sample
import Verif.Props.Scaled
import Verif.Props.Schedule
import Verif.Props.ScheduleFaults
import Verif.Props.Sequence
import Verif.Props.Size
import Verif.Props.Storage
import Verif.Props.Text
import Verif.Props.TokenFilter
import Verif.Props.Tokenize
import Verif.Props.Unique
import Verif.Props.UserDict
import Verif.Props.Words
/-! Axioms of every theorem named in MANIFEST.json (generated by tools/manifest.py). -/
#print axioms Verif.Props.c01_lossless
#print axioms Verif.Props.c01_total_lossless
#print axioms Verif.Props.c02_spans_tile
#print axioms Verif.Props.c03_positions
#print axioms Verif.Props.c04_no_straddle
#print axioms Verif.Props.c05_compositional
#print axioms Verif.Props.c06_reuse_partial
#print axioms Verif.Props.c06_empty_text_fails
#print axioms Verif.Props.c06_empty_exact
#print axioms Verif.Props.c07_optimal
#print axioms Verif.Props.c07_optimal_any
#print axioms Verif.Props.c07_short
#print axioms Verif.Props.noOverflow_normal
#print axioms Verif.Props.noOverflow_default
#print axioms Verif.Props.c08_origin
#print axioms Verif.Props.c08_ids
#print axioms Verif.Props.c09_ties
#print axioms Verif.Props.c10_no_panic
#print axioms Verif.Props.c10_bad_context_id_panics
#print axioms Verif.Props.c100_tokens
#print axioms Verif.Props.c100_short
#print axioms Verif.Props.c100_answers
#print axioms Verif.Props.c101_filter
#print axioms Verif.Props.c101_exact
#print axioms Verif.Props.c101_total_partial
#print axioms Verif.Props.c101_sources_partial
#print axioms Verif.Props.c101_number_fails
#print axioms Verif.Props.c101_stem_fails
#print axioms Verif.Props.c101_details_fails
#print axioms Verif.Props.c102_file_partial
#print axioms Verif.Props.c102_command_partial
#print axioms Verif.Props.c102_directory_exact
#print axioms Verif.Props.c102_user_exact
#print axioms Verif.Props.c102_tokenizer_exact
#print axioms Verif.Props.c102_file_exact
#print axioms Verif.Props.c102_command_exact
#print axioms Verif.Props.c102_matrix_fails
#print axioms Verif.Props.c102_rows_fails
#print axioms Verif.Props.c103_tokenize
#print axioms Verif.Props.c103_whole
#print axioms Verif.Props.c103_analyze
#print axioms Verif.Props.c103_file
#print axioms Verif.Props.c103_command
#print axioms Verif.Props.c104_files_partial
#print axioms Verif.Props.c104_others
#print axioms Verif.Props.c104_same
#print axioms Verif.Props.c104_apart
#print axioms Verif.Props.c104_user
#print axioms Verif.Props.c104_moments
#print axioms Verif.Props.c104_faults_moments
#print axioms Verif.Props.c104_faults_partial
#print axioms Verif.Props.c104_faults_user
#print axioms Verif.Props.c104_mixed_fails
#print axioms Verif.Props.c104_killed_fails
#print axioms Verif.Props.c104_failed_fails
#print axioms Verif.Props.c104_reader_partial
#print axioms Verif.Props.c104_reader_fails
#print axioms Verif.Props.c105_words
#print axioms Verif.Props.c105_settings
#print axioms Verif.Props.c105_selected
#print axioms Verif.Props.c105_slices
#print axioms Verif.Props.c106_filtered
#print axioms Verif.Props.c106_errors
#print axioms Verif.Props.c106_same
#print axioms Verif.Props.c106_configured
#print axioms Verif.Props.c107_afterwards
#print axioms Verif.Props.c107_stages
#print axioms Verif.Props.c107_configured
#print axioms Verif.Props.c11_normal
#print axioms Verif.Props.c11_words
#print axioms Verif.Props.c11_decompose
#print axioms Verif.Props.c11_monotone
#print axioms Verif.Props.c12_maximal_run
#print axioms Verif.Props.c13_when_unknown
#print axioms Verif.Props.c14_user_words
#print axioms Verif.Props.c15_offsets_partial
#print axioms Verif.Props.c15_offsets_after_dropped_fails
#print axioms Verif.Props.c15_shift
#print axioms Verif.Props.c16_roundtrip
#print axioms Verif.Props.c16_injective
#print axioms Verif.Props.c17_prefix
#print axioms Verif.Props.c17_find_surface
#print axioms Verif.Props.c18_details
#print axioms Verif.Props.c18_total
#print axioms Verif.Props.c18_no_details_fails
#print axioms Verif.Props.c18_nul_fails
#print axioms Verif.Props.c19_skipped
#print axioms Verif.Props.c19_reported
#print axioms Verif.Props.c20_matrix
#print axioms Verif.Props.c20_any
#print axioms Verif.Props.c20_bad_number
#print axioms Verif.Props.c20_blank_line_fails
#print axioms Verif.Props.c21_categories
#print axioms Verif.Props.c21_c22_no_panic
#print axioms Verif.Props.mem_categoriesOf
#print axioms Verif.Props.c22_flags_partial
#print axioms Verif.Props.c22_exact
#print axioms Verif.Props.c22_order_fails
#print axioms Verif.Props.c22_repeated_fails
#print axioms Verif.Props.c22_undefined_fails
#print axioms Verif.Props.c23_hash_order
#print axioms Verif.Props.c24_unknown_words
#print axioms Verif.Props.c24_rejects
#print axioms Verif.Props.c25_char_defs
#print axioms Verif.Props.c25_unk_dict
#print axioms Verif.Props.c25_user_dict
#print axioms Verif.Props.c25_injective
#print axioms Verif.Props.c26_char_defs
#print axioms Verif.Props.c26_unk_dict
#print axioms Verif.Props.c26_user_dict
#print axioms Verif.Props.c27_roundtrip
#print axioms Verif.Props.c27_container
#print axioms Verif.Props.c27_written_file
#print axioms Verif.Props.c27_truncated
#print axioms Verif.Props.c28_find_surface
#print axioms Verif.Props.c28_prefix
#print axioms Verif.Props.c28_details_total
#print axioms Verif.Props.c29_reported_partial
#print axioms Verif.Props.c29_short_row_fails
#print axioms Verif.Props.c29_accepted
#print axioms Verif.Props.c29_panics_exact
#print axioms Verif.Props.c29_panic_exact
#print axioms Verif.Props.c29_parse_exact
#print axioms Verif.Props.c29_content_exact
#print axioms Verif.Props.c30_first
#print axioms Verif.Props.c30_history
#print axioms Verif.Props.c30_frame
#print axioms Verif.Props.c31_longest_match
#print axioms Verif.Props.c32_mapping
#print axioms Verif.Props.c32_unicode_normalize
#print axioms Verif.Props.c33_mapping
#print axioms Verif.Props.c33_unicode_normalize
#print axioms Verif.Props.c33_regex
#print axioms Verif.Props.c34_text
#print axioms Verif.Props.c34_expansion
#print axioms Verif.Props.c34_empty_match_fails
#print axioms Verif.Props.c34_capture_fails
#print axioms Verif.Props.c34_same_length_partial
#print axioms Verif.Props.c34_literal_partial
#print axioms Verif.Props.c34_empty_exact
#print axioms Verif.Props.c34_table
#print axioms Verif.Props.c35_fails
#print axioms Verif.Props.c35_boundaries_partial
#print axioms Verif.Props.c35_exact
#print axioms Verif.Props.c35_ascii_pieces
#print axioms Verif.Props.c35_ascii_keys
#print axioms Verif.Props.c36_expand
#print axioms Verif.Props.c36_groups
#print axioms Verif.Props.c37_fails
#print axioms Verif.Props.c37_three_bytes_partial
#print axioms Verif.Props.c37_exact
#print axioms Verif.Props.c38_chain
#print axioms Verif.Props.c38_traced
#print axioms Verif.Props.c38_range
#print axioms Verif.Props.c38_mapping_filtered
#print axioms Verif.Props.c38_unicode_normalize_filtered
#print axioms Verif.Props.c38_regex_filtered
#print axioms Verif.Props.c38_iteration_mark_filtered
#print axioms Verif.Props.c39_words
#print axioms Verif.Props.c40_japanese_tags_partial
#print axioms Verif.Props.c40_korean_tags
#print axioms Verif.Props.c40_long_tag_fails
#print axioms Verif.Props.c40_no_details_fails
#print axioms Verif.Props.c40_new_exact
#print axioms Verif.Props.c40_apply_exact
#print axioms Verif.Props.c41_length
#print axioms Verif.Props.c42_compound_partial
#print axioms Verif.Props.c42_long_tag_fails
#print axioms Verif.Props.c42_new_exact
#print axioms Verif.Props.c42_apply_exact
#print axioms Verif.Props.c43_numerals
#print axioms Verif.Props.c43_printed
#print axioms Verif.Props.c43_number_filter
#print axioms Verif.Props.c44_fails
#print axioms Verif.Props.c44_wrong_value
#print axioms Verif.Props.c44_prefix_partial
#print axioms Verif.Props.c44_exact
#print axioms Verif.Props.c44_filter_exact
#print axioms Verif.Props.c45_digits
#print axioms Verif.Props.c45_unique
#print axioms Verif.Props.c46_stem_partial
#print axioms Verif.Props.c46_no_block_fails
#print axioms Verif.Props.c46_not_idempotent
#print axioms Verif.Props.c46_exact
#print axioms Verif.Props.c47_only_text
#print axioms Verif.Props.c48_plain
#print axioms Verif.Props.c49_kind_names
#print axioms Verif.Props.c49_json_names
#print axioms Verif.Props.c49_mode_names
#print axioms Verif.Props.c50_kind
#print axioms Verif.Props.c50_path
#print axioms Verif.Props.c50_user
#print axioms Verif.Props.c50_tokenizer
#print axioms Verif.Props.c51_members
#print axioms Verif.Props.c51_order
#print axioms Verif.Props.c51_rejected
#print axioms Verif.Props.c51_other
#print axioms Verif.Props.c52_roundtrip_partial
#print axioms Verif.Props.c52_fails
#print axioms Verif.Props.c52_exact
#print axioms Verif.Props.c53_mecab
#print axioms Verif.Props.c53_mecab_unambiguous
#print axioms Verif.Props.c53_wakati_partial
#print axioms Verif.Props.c53_wakati_empty_fails
#print axioms Verif.Props.c53_wakati_exact
#print axioms Verif.Props.c53_json
#print axioms Verif.Props.c53_session
#print axioms Verif.Props.c53_formats
#print axioms Verif.Props.c53_list
#print axioms Verif.Props.c54_homographs_fails
#print axioms Verif.Props.c54_within_limits_partial
#print axioms Verif.Props.c54_lookup
#print axioms Verif.Props.c54_exact
#print axioms Verif.Props.c54_prefix
#print axioms Verif.Props.c54_user
#print axioms Verif.Props.c54_tokens
#print axioms Verif.Props.c20_large_backward_fails
#print axioms Verif.Props.c20_any
#print axioms Verif.Props.c24_wide_fails
#print axioms Verif.Props.c55_forms_partial
#print axioms Verif.Props.c55_other_kinds
#print axioms Verif.Props.c55_short_details_fails
#print axioms Verif.Props.c55_exact
#print axioms Verif.Props.c56_mapping_tokens
#print axioms Verif.Props.c57_in_directory
#print axioms Verif.Props.c57_output_file
#print axioms Verif.Props.c57_round_trip
#print axioms Verif.Props.c58_lines
#print axioms Verif.Props.c58_columns
#print axioms Verif.Props.c58_words
#print axioms Verif.Props.c58_numbers
#print axioms Verif.Props.c58_order
#print axioms Verif.Props.c58_unique
#print axioms Verif.Props.c58_decimal
#print axioms Verif.Props.c58_row
#print axioms Verif.Props.c58_user_row
#print axioms Verif.Props.c59_build
#print axioms Verif.Props.c59_success
#print axioms Verif.Props.c59_errors_partial
#print axioms Verif.Props.c59_errors_fails
#print axioms Verif.Props.c59_errors_exact
#print axioms Verif.Props.c60_load
#print axioms Verif.Props.c60_embedded
#print axioms Verif.Props.c60_compressed
#print axioms Verif.Props.c61_reported_partial
#print axioms Verif.Props.c61_reported_fails
#print axioms Verif.Props.c61_reported_exact
#print axioms Verif.Props.c62_files
#print axioms Verif.Props.c62_order
#print axioms Verif.Props.c62_fresh_partial
#print axioms Verif.Props.c62_failed
#print axioms Verif.Props.c62_truncated_fails
#print axioms Verif.Props.c62_mixed_fails
#print axioms Verif.Props.c62_fresh_exact
#print axioms Verif.Props.c62_fresh_compressed
#print axioms Verif.Props.c63_succeeds
#print axioms Verif.Props.c63_reported
#print axioms Verif.Props.c63_interrupted
#print axioms Verif.Props.c64_source_semantics
#print axioms Verif.Props.c64_well_formed
#print axioms Verif.Props.c64_lossless
#print axioms Verif.Props.c65_built_and_loaded
#print axioms Verif.Props.c65_embedded
#print axioms Verif.Props.c66_char
#print axioms Verif.Props.c66_token_partial
#print axioms Verif.Props.c66_char_effect_partial
#print axioms Verif.Props.c66_token_effect_partial
#print axioms Verif.Props.c66_long_tags_fails
#print axioms Verif.Props.c66_panic_exact
#print axioms Verif.Props.c67_analyzer
#print axioms Verif.Props.c67_same
#print axioms Verif.Props.c67_errors
#print axioms Verif.Props.c67_ignored_fails
#print axioms Verif.Props.c68_flag
#print axioms Verif.Props.c68_same
#print axioms Verif.Props.c68_session
#print axioms Verif.Props.c68_failure
#print axioms Verif.Props.c68_bare_flag_fails
#print axioms Verif.Props.c69_char_def
#print axioms Verif.Props.c69_char_def_well_formed
#print axioms Verif.Props.c69_surrogate_fails
#print axioms Verif.Props.c69_surrogate_category_fails
#print axioms Verif.Props.c69_unk
#print axioms Verif.Props.c69_matrix_partial
#print axioms Verif.Props.c69_matrix_fails
#print axioms Verif.Props.c70_analyze
#print axioms Verif.Props.c70_from_files
#print axioms Verif.Props.c70_embedded
#print axioms Verif.Props.c71_tokenize_partial
#print axioms Verif.Props.c71_embedded
#print axioms Verif.Props.c71_user_csv_fails
#print axioms Verif.Props.c72_local
#print axioms Verif.Props.c72_unique
#print axioms Verif.Props.c72_added_word
#print axioms Verif.Props.c72_unused_user
#print axioms Verif.Props.c73_file_order
#print axioms Verif.Props.c73_reproducible
#print axioms Verif.Props.c74_success
#print axioms Verif.Props.c74_accepted
#print axioms Verif.Props.c74_exact
#print axioms Verif.Props.c74_reported_partial
#print axioms Verif.Props.c74_unwrap_fails
#print axioms Verif.Props.c74_short_record_fails
#print axioms Verif.Props.c74_matrix_fails
#print axioms Verif.Props.c75_archive
#print axioms Verif.Props.c75_cache_kept
#print axioms Verif.Props.c75_recovers
#print axioms Verif.Props.c75_tokenizes
#print axioms Verif.Props.c75_success_partial
#print axioms Verif.Props.c75_no_leftover
#print axioms Verif.Props.c75_success_cache
#print axioms Verif.Props.c75_offline
#print axioms Verif.Props.c75_refused
#print axioms Verif.Props.c75_docs
#print axioms Verif.Props.c75_docs_again_fails
#print axioms Verif.Props.c75_docs_mix_fails
#print axioms Verif.Props.c75_rename_fails
#print axioms Verif.Props.c76_penalties
#print axioms Verif.Props.c76_short
#print axioms Verif.Props.c77_superset
#print axioms Verif.Props.c77_cost
#print axioms Verif.Props.c77_short_partial
#print axioms Verif.Props.c77_short_fails
#print axioms Verif.Props.c77_short_exact
#print axioms Verif.Props.c77_short_sources
#print axioms Verif.Props.c77_known
#print axioms Verif.Props.c78_select
#print axioms Verif.Props.c78_forms
#print axioms Verif.Props.c78_compound
#print axioms Verif.Props.c78_number
#print axioms Verif.Props.c78_conversions
#print axioms Verif.Props.c78_mapping_partial
#print axioms Verif.Props.c78_mapping_fails
#print axioms Verif.Props.c78_stem_fails
#print axioms Verif.Props.c78_analyzer
#print axioms Verif.Props.c78_stem_exact
#print axioms Verif.Props.c79_select
#print axioms Verif.Props.c79_tags
#print axioms Verif.Props.c79_analyzer
#print axioms Verif.Props.c79_fails
#print axioms Verif.Props.c80_read
#print axioms Verif.Props.c80_writable
#print axioms Verif.Props.c80_unambiguous
#print axioms Verif.Props.c80_plain
#print axioms Verif.Props.c80_texts_accepted
#print axioms Verif.Props.c80_rectangular
#print axioms Verif.Props.c80_not_utf8
#print axioms Verif.Props.c80_not_utf8_fails
#print axioms Verif.Props.c80_file
#print axioms Verif.Props.c80_directory
#print axioms Verif.Props.c80_user
#print axioms Verif.Props.c81_crowded
#print axioms Verif.Props.c81_conditions
#print axioms Verif.Props.c81_compiled
#print axioms Verif.Props.c81_penalties
#print axioms Verif.Props.c81_loaded
#print axioms Verif.Props.c81_embedded
#print axioms Verif.Props.c82_unique
#print axioms Verif.Props.c82_answers
#print axioms Verif.Props.c82_fitting
#print axioms Verif.Props.c82_sources
#print axioms Verif.Props.c82_same
#print axioms Verif.Props.c83_document
#print axioms Verif.Props.c83_session
#print axioms Verif.Props.c84_read
#print axioms Verif.Props.c84_unique
#print axioms Verif.Props.c84_layout
#print axioms Verif.Props.c84_rejected
#print axioms Verif.Props.c84_rewritten
#print axioms Verif.Props.c85_compile
#print axioms Verif.Props.c85_files
#print axioms Verif.Props.c85_calls
#print axioms Verif.Props.c86_tokenizer
#print axioms Verif.Props.c86_tokenize
#print axioms Verif.Props.c87_unique
#print axioms Verif.Props.c87_analyze
#print axioms Verif.Props.c87_output
#print axioms Verif.Props.c88_cheaper
#print axioms Verif.Props.c88_unused
#print axioms Verif.Props.c88_connections
#print axioms Verif.Props.c88_row
#print axioms Verif.Props.c88_user_row
#print axioms Verif.Props.c89_penalty
#print axioms Verif.Props.c89_tradeoff
#print axioms Verif.Props.c89_kanji
#print axioms Verif.Props.c89_other
#print axioms Verif.Props.c89_both
#print axioms Verif.Props.c90_same
#print axioms Verif.Props.c90_moved
#print axioms Verif.Props.c90_unused
#print axioms Verif.Props.c90_dominated
#print axioms Verif.Props.c90_duplicate
#print axioms Verif.Props.c90_row
#print axioms Verif.Props.c91_compound_partial
#print axioms Verif.Props.c91_decompose_partial
#print axioms Verif.Props.c91_general
#print axioms Verif.Props.c91_record
#print axioms Verif.Props.c91_fails
#print axioms Verif.Props.c91_normal_fails
#print axioms Verif.Props.c92_segmentation
#print axioms Verif.Props.c92_tokens
#print axioms Verif.Props.c92_answers
#print axioms Verif.Props.c93_meaning
#print axioms Verif.Props.c93_reordered
#print axioms Verif.Props.c93_overlap_matters
#print axioms Verif.Props.c94_bounds
#print axioms Verif.Props.c82_fitting
#print axioms Verif.Props.c94_fails
#print axioms Verif.Props.c95_char
#print axioms Verif.Props.c95_token
#print axioms Verif.Props.c95_char_text
#print axioms Verif.Props.c95_token_text
#print axioms Verif.Props.c95_value_text
#print axioms Verif.Props.c95_repeated
#print axioms Verif.Props.c95_fails
#print axioms Verif.Props.c96_in_order_partial
#print axioms Verif.Props.c96_settings_partial
#print axioms Verif.Props.c96_plain
#print axioms Verif.Props.c96_positions
#print axioms Verif.Props.c96_sequence
#print axioms Verif.Props.c96_fails
#print axioms Verif.Props.c96_capture_fails
#print axioms Verif.Props.c96_empty_match_fails
#print axioms Verif.Props.c97_edges
#print axioms Verif.Props.c97_numbers
#print axioms Verif.Props.c98_dropped
#print axioms Verif.Props.c98_all
#print axioms Verif.Props.c98_same_text_fails
#print axioms Verif.Props.c99_parts_partial
#print axioms Verif.Props.c99_mappings
#print axioms Verif.Props.c99_normalize
#print axioms Verif.Props.c99_regex
#print axioms Verif.Props.c99_no_compound_partial
#print axioms Verif.Props.c99_compound_fails
#print axioms Verif.Props.c99_removed_fails
#print axioms Verif.Props.c99_iteration_mark_fails
