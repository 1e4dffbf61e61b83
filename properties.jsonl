{"id": "C01", "title": "Tokenization is lossless", "statement": "Concatenating, in order, the text of all tokens returned by Tokenizer::tokenize gives back exactly the input text, provided the loaded dictionary gives every character at least one category and every such category at least one unknown-word entry.", "quantifier": "every input string (any length, any Unicode scalar values), every mode, every system dictionary and optional user dictionary meeting the completeness proviso", "why_tests_cant": "A test fixes a few strings and one dictionary; losing or duplicating text depends on which lattice positions become reachable for the particular string/dictionary pair, an unbounded space.", "anchors": ["lindera-tokenizer/src/tokenizer.rs:Tokenizer::tokenize", "lindera-core/src/viterbi.rs:Lattice::set_text", "lindera-core/src/viterbi.rs:Lattice::tokens_offset"]}
{"id": "C02", "title": "Token byte spans tile the input", "statement": "The byte ranges [byte_start, byte_end) reported for the tokens of Tokenizer::tokenize start at 0, are contiguous, end at the text's byte length, lie on character boundaries, are non-empty, and slicing the input with them gives each token's text.", "quantifier": "every input string, mode and complete dictionary", "why_tests_cant": "Offsets are accumulated across sentences and multi-byte characters; an off-by-one appears only for particular sequences of sentence lengths.", "anchors": ["lindera-tokenizer/src/tokenizer.rs:Tokenizer::tokenize", "lindera-tokenizer/src/token.rs:Token::new"]}
{"id": "C03", "title": "Token positions are 0,1,2,...", "statement": "The i-th returned token has position i and position_length 1, across sentence boundaries.", "quantifier": "every input string, mode and dictionary (complete or not)", "why_tests_cant": "Positions are a running counter over an unbounded number of sentences.", "anchors": ["lindera-tokenizer/src/tokenizer.rs:Tokenizer::tokenize", "lindera-tokenizer/src/token.rs:Token::new"]}
{"id": "C04", "title": "Tokens never straddle a sentence delimiter", "statement": "In the text of any token returned by Tokenizer::tokenize, a delimiter (。 、 newline tab) can only be the last character.", "quantifier": "every input string, mode, dictionary, even if the dictionary contains words with inner delimiters", "why_tests_cant": "Would need all strings x all dictionaries, including dictionaries with words containing delimiters.", "anchors": ["lindera-tokenizer/src/tokenizer.rs:Tokenizer::tokenize"]}
{"id": "C05", "title": "Tokenization is compositional at delimiters (no state leaks between sentences)", "statement": "If text a ends with a delimiter, tokenize(a ++ b) is tokenize(a) followed by tokenize(b) with byte offsets shifted by the byte length of a and positions shifted by the number of tokens of a, although one mutable lattice is reused for all sentences.", "quantifier": "every pair of strings with the first ending in a delimiter, every mode, every complete dictionary", "why_tests_cant": "The reused lattice carries state from all previous sentences; a leak shows only after particular histories of sentence lengths.", "anchors": ["lindera-tokenizer/src/tokenizer.rs:Tokenizer::tokenize", "lindera-core/src/viterbi.rs:Lattice::clear", "lindera-core/src/viterbi.rs:Lattice::set_capacity"]}
{"id": "C06", "title": "A reused lattice behaves like a fresh one", "statement": "Calling Lattice::set_text, calculate_path_costs and tokens_offset on a Lattice that has processed any sequence of earlier texts gives the same result as on Lattice::default().", "quantifier": "every history of earlier texts/dictionaries/modes, every text", "why_tests_cant": "Quantifies over all histories of a mutable object.", "anchors": ["lindera-core/src/viterbi.rs:Lattice::clear", "lindera-core/src/viterbi.rs:Lattice::set_capacity", "lindera-core/src/viterbi.rs:Lattice::set_text", "lindera-core/src/viterbi.rs:Lattice::calculate_path_costs"]}
{"id": "C07", "title": "The returned segmentation has minimal cost", "statement": "Among all ways of segmenting a sentence with the candidate words of the lattice (dictionary words, user words, unknown words), the segmentation returned has the least total of word costs, connection costs and mode penalties, as long as the costs of the beginnings of its segmentations fit into 32 bits (in particular for every sentence below an explicit length).", "quantifier": "every sentence of any length whose costs fit into 32 bits, every mode and penalty configuration, every dictionary", "why_tests_cant": "The number of candidate segmentations is exponential; tests compare against one expected output.", "anchors": ["lindera-core/src/viterbi.rs:Lattice::calculate_path_costs", "lindera-core/src/viterbi.rs:Lattice::tokens_offset", "lindera-core/src/mode.rs:Penalty::penalty"]}
{"id": "C08", "title": "Every token is a dictionary word or an unknown word", "statement": "Each token returned carries a word id that is either an entry of the system or user dictionary whose surface is exactly the token's text, or the unknown-word id and the text is an unknown-word candidate at that place.", "quantifier": "every input, mode, dictionary; every returned token", "why_tests_cant": "All strings and dictionaries; a wrong word id/surface pairing needs a particular overlap of prefixes.", "anchors": ["lindera-core/src/viterbi.rs:Lattice::set_text", "lindera-core/src/viterbi.rs:Lattice::process_unknown_word", "lindera-core/src/prefix_dict.rs:PrefixDict::prefix"]}
{"id": "C09", "title": "Tie-breaking is deterministic and documented", "statement": "When several predecessors give the same least cost, the path keeps the one inserted first: the one starting earliest in the text, and at equal start the user-dictionary word before the system word before the unknown word.", "quantifier": "every lattice built from any text/dictionary", "why_tests_cant": "Ties occur only for particular cost combinations.", "anchors": ["lindera-core/src/viterbi.rs:Lattice::calculate_path_costs", "lindera-core/src/viterbi.rs:Lattice::set_text"]}
{"id": "C10", "title": "Tokenize does not panic on a consistent dictionary", "statement": "Tokenizer::tokenize returns Ok and never panics (no index out of range, no slice off a character boundary) when every word's connection ids are inside the connection matrix and every category has a definition.", "quantifier": "every input string, mode, consistent dictionary", "why_tests_cant": "A panic may need one specific character/word-id combination.", "anchors": ["lindera-core/src/viterbi.rs:Lattice::set_text", "lindera-core/src/viterbi.rs:Lattice::calculate_path_costs", "lindera-core/src/connection.rs:ConnectionCostMatrix::cost", "lindera-core/src/character_definition.rs:LookupTable::eval"]}
{"id": "C11", "title": "Decompose-mode penalty arithmetic", "statement": "Mode::Normal charges no penalty; Mode::Decompose charges nothing up to the kanji threshold, (n-kanji_threshold)*kanji_penalty for all-kanji words beyond it, (n-other_threshold)*other_penalty for other words beyond the other threshold, so with non-negative parameters the penalty is non-negative and, in either class of words, grows with length.", "quantifier": "all thresholds, penalties and word lengths", "why_tests_cant": "Infinite parameter space with two thresholds whose order is not fixed.", "anchors": ["lindera-core/src/mode.rs:Penalty::penalty", "lindera-core/src/mode.rs:Mode::penalty_cost", "lindera-core/src/viterbi.rs:Edge::num_chars"]}
{"id": "C12", "title": "Unknown-word grouping takes the maximal run", "statement": "An unknown word of a grouping category extends from its first character over exactly the maximal run of following characters that have the same category at the same rank; for a non-grouping category it is exactly one character.", "quantifier": "every text, every start position, every character definition", "why_tests_cant": "All texts and all category tables.", "anchors": ["lindera-core/src/viterbi.rs:Lattice::process_unknown_word"]}
{"id": "C13", "title": "When unknown words are considered", "statement": "In Decompose mode, and in Normal mode wherever no earlier unknown word still covers the position, unknown words of a category are candidates exactly if the category's invoke flag is set or no dictionary word starts there.", "quantifier": "every text, position, dictionary, mode", "why_tests_cant": "Depends on an accumulator (end of the previous unknown word) carried along the whole sentence.", "anchors": ["lindera-core/src/viterbi.rs:Lattice::set_text", "lindera-core/src/viterbi.rs:Lattice::process_unknown_word"]}
{"id": "C14", "title": "User dictionary words take part in the optimisation", "statement": "If a segmentation that uses user-dictionary words is made of words found at their positions, the returned segmentation costs no more than it.", "quantifier": "every text, every user dictionary, every segmentation using it", "why_tests_cant": "Quantifies over all segmentations.", "anchors": ["lindera-core/src/viterbi.rs:Lattice::set_text", "lindera-tokenizer/src/tokenizer.rs:Tokenizer::tokenize"]}
{"id": "C15", "title": "Byte offsets stay right after a sentence that cannot be covered", "statement": "Even if some sentence has no covering segmentation (incomplete dictionary), the byte offsets of tokens from later sentences point at those tokens in the input.", "quantifier": "every text and every dictionary, complete or not", "why_tests_cant": "Needs an incomplete dictionary and a multi-sentence text; fails in the code (offset accumulator is advanced by tokens, not by sentences).", "anchors": ["lindera-tokenizer/src/tokenizer.rs:Tokenizer::tokenize"]}
{"id": "C16", "title": "WordEntry binary round trip", "statement": "Deserializing the bytes written by WordEntry::serialize gives the same entry (with the dictionary's is_system flag) and the encoding is always SERIALIZED_LEN = 10 bytes.", "quantifier": "every word id, cost and pair of context ids in their integer ranges", "why_tests_cant": "2^80 entries.", "anchors": ["lindera-core/src/word_entry.rs:WordEntry::serialize", "lindera-core/src/word_entry.rs:WordEntry::deserialize"]}
{"id": "C17", "title": "Compiled dictionary finds exactly the source rows", "statement": "After building a dictionary from CSV rows within the limits of the format (fewer than 32 words per surface, fewer than 2^26 words, 4 GiB of details, no NUL, non-empty surfaces) and loading it, PrefixDict::prefix(s) yields exactly the entries of the rows whose (normalized) surface is a non-empty prefix of s, grouped by increasing surface length and in file order, with the row's costs and ids; find_surface likewise for whole surfaces.", "quantifier": "every list of CSV rows and every query string", "why_tests_cant": "All dictionaries and all query strings; the 5-bit homograph count makes it fail only for 32 or more homographs of a surface.", "anchors": ["lindera-dictionary-builder/src/dict.rs:DictBuilder::build", "lindera-core/src/prefix_dict.rs:PrefixDict::prefix", "lindera-core/src/prefix_dict.rs:PrefixDict::find_surface"]}
{"id": "C18", "title": "Word details round trip", "statement": "For each row compiled into a system dictionary that has detail columns, the id found by its surface makes Dictionary::word_details return the row's (normalized) detail columns unchanged; ids outside the dictionary give None and no id makes it panic.", "quantifier": "every CSV row list, every row", "why_tests_cant": "Details are stored at computed offsets in one byte buffer; all row lists.", "anchors": ["lindera-dictionary-builder/src/dict.rs:DictBuilder::build", "lindera-core/src/dictionary.rs:Dictionary::word_details"]}
{"id": "C19", "title": "Skipped rows do not shift word ids", "statement": "When the builder is told to skip rows with unparsable cost or ids, every remaining word has the same numbers and details as if those rows had not been in the file; without that option such a row is reported as a parse error.", "quantifier": "every row list with any subset of invalid rows", "why_tests_cant": "All placements of invalid rows.", "anchors": ["lindera-dictionary-builder/src/dict.rs:DictBuilder::build"]}
{"id": "C20", "title": "Connection matrix round trip", "statement": "After compiling a connection matrix file and loading it, cost(forward, backward) is the value on the last line of the file for that pair, or i16::MAX when the file has no such line, for all ids within the declared sizes. Backward sizes are limited to 32767 by the 16-bit signed header (larger sizes: C54).", "quantifier": "every matrix file with in-range ids, every id pair", "why_tests_cant": "All matrices; the size is read back as a signed 16-bit number.", "anchors": ["lindera-dictionary-builder/src/cost_matrix.rs:CostMatrixBuilder::build", "lindera-core/src/connection.rs:ConnectionCostMatrix::load", "lindera-core/src/connection.rs:ConnectionCostMatrix::cost"]}
{"id": "C21", "title": "Character categories follow the char.def ranges", "statement": "For every character c, CharacterDefinitions::lookup_categories(c) is the list, without duplicates and in file order, of the categories of all range lines whose interval contains c, or the DEFAULT category when there is none.", "quantifier": "every character definition (any number and overlap of ranges) and every character", "why_tests_cant": "The compiled table is a boundary search over 1.1M code points and arbitrary overlapping ranges.", "anchors": ["lindera-core/src/character_definition.rs:LookupTable::from_fn", "lindera-core/src/character_definition.rs:LookupTable::eval", "lindera-core/src/character_definition.rs:CharacterDefinitionsBuilder::build_lookup_table", "lindera-core/src/character_definition.rs:CharacterDefinitionsBuilder::lookup_categories"]}
{"id": "C22", "title": "Category flags belong to the category of that name", "statement": "CharacterDefinitions::lookup_definition(id) returns the invoke/group/length flags given in char.def for the category whose name is category_name(id).", "quantifier": "every char.def file", "why_tests_cant": "Depends on the order of definition and range lines in the file.", "anchors": ["lindera-core/src/character_definition.rs:CharacterDefinitionsBuilder::parse_category", "lindera-core/src/character_definition.rs:CharacterDefinitionsBuilder::category_id", "lindera-core/src/character_definition.rs:CharacterDefinitions::lookup_definition"]}
{"id": "C23", "title": "Compiling char.def does not depend on hash order", "statement": "The compiled character definitions are the same whatever the iteration order of the hash map of category names.", "quantifier": "every iteration order of the map", "why_tests_cant": "Hash iteration order is randomised per process.", "anchors": ["lindera-core/src/character_definition.rs:CharacterDefinitionsBuilder::build"]}
{"id": "C24", "title": "Unknown-word entries are found by category name", "statement": "UnknownDictionary::lookup_word_ids(category) lists exactly the unk.def lines whose first field is the category's name, in order, each id is valid for word_entry, and word_entry carries the line's costs and ids, for files whose ids and costs fit 16 bits (others: C54). A line with a wrong number of fields is rejected.", "quantifier": "every unk.def content and category list", "why_tests_cant": "All files; ids are truncated silently to 16 bits.", "anchors": ["lindera-core/src/unknown_dictionary.rs:parse_unk", "lindera-core/src/unknown_dictionary.rs:UnknownDictionary::lookup_word_ids", "lindera-core/src/unknown_dictionary.rs:UnknownDictionary::word_entry"]}
{"id": "C25", "title": "Serialized dictionaries load back unchanged", "statement": "UserDictionary::load, CharacterDefinitions::load and UnknownDictionary::load applied to the bytes written by the builders return equal values.", "quantifier": "every user dictionary, character definition and unknown dictionary value", "why_tests_cant": "All values of nested variable-length structures.", "anchors": ["lindera-core/src/dictionary.rs:UserDictionary::load", "lindera-core/src/character_definition.rs:CharacterDefinitions::load", "lindera-core/src/unknown_dictionary.rs:UnknownDictionary::load"]}
{"id": "C26", "title": "A truncated binary dictionary is rejected, not misread", "statement": "Loading any strict prefix of a serialized user dictionary, character definition or unknown dictionary (as left by a crash during writing) returns an error.", "quantifier": "every value and every crash point (prefix length)", "why_tests_cant": "All crash points of all files.", "anchors": ["lindera-core/src/dictionary.rs:UserDictionary::load", "lindera-core/src/character_definition.rs:CharacterDefinitions::load", "lindera-core/src/unknown_dictionary.rs:UnknownDictionary::load"]}
{"id": "C27", "title": "Compress/decompress round trip", "statement": "decompress(compress(data, algorithm)) = data for each algorithm, and the compressed container survives its own serialization.", "quantifier": "every byte string and algorithm", "why_tests_cant": "All byte strings.", "anchors": ["lindera-compress/src/lib.rs:compress", "lindera-decompress/src/lib.rs:decompress"]}
{"id": "C28", "title": "User dictionary rows become lookups", "statement": "Each row of a user CSV is found by its surface after build, with the simple-format default cost and ids or the row's own, and its word id selects the details specified by the simple or detailed format.", "quantifier": "every accepted user CSV", "why_tests_cant": "All row lists mixing the two formats.", "anchors": ["lindera-dictionary-builder/src/user_dict.rs:UserDictBuilder::build", "lindera-core/src/dictionary.rs:UserDictionary::word_details"]}
{"id": "C29", "title": "Malformed user CSV rows are reported as errors", "statement": "Building a user dictionary from a row with an unsupported number of columns or non-numeric cost returns an error instead of panicking.", "quantifier": "every row list", "why_tests_cant": "All row shapes.", "anchors": ["lindera-dictionary-builder/src/user_dict.rs:UserDictBuilder::build"]}
{"id": "C30", "title": "Token details", "statement": "Token::get_details gives [\"UNK\"] for unknown words, the system dictionary's details for system words, the user dictionary's for user words; calling it again gives the same answer, and set_details overrides it.", "quantifier": "every token, dictionary, call sequence", "why_tests_cant": "All call sequences on a caching object.", "anchors": ["lindera-tokenizer/src/token.rs:Token::get_details", "lindera-tokenizer/src/token.rs:Token::set_details", "lindera-tokenizer/src/token.rs:Token::details"]}
{"id": "C31", "title": "Mapping character filter is leftmost-longest replacement", "statement": "MappingCharacterFilter::apply replaces, scanning left to right, at each position the longest key that matches there by its value and copies the character if no key matches.", "quantifier": "every mapping with non-empty keys and every text", "why_tests_cant": "All mappings with overlapping keys and all texts.", "anchors": ["lindera-filter/src/character_filter/mapping.rs:MappingCharacterFilter::apply"]}
{"id": "C32", "title": "Character-filter offsets map segment boundaries back", "statement": "For the offset table returned by a replacing character filter, correct_offset sends the output offset of every boundary between replaced/copied pieces to the input offset of that boundary (the rightmost one if pieces were deleted there).", "quantifier": "every sequence of replacements with non-empty matched pieces", "why_tests_cant": "Cumulative differences along arbitrarily many growing and shrinking replacements.", "anchors": ["lindera-filter/src/character_filter.rs:correct_offset", "lindera-filter/src/character_filter.rs:add_offset_diff", "lindera-filter/src/character_filter/mapping.rs:MappingCharacterFilter::apply", "lindera-filter/src/character_filter/unicode_normalize.rs:UnicodeNormalizeCharacterFilter::apply"]}
{"id": "C33", "title": "Offset correction is monotone and stays inside the original text", "statement": "Along every offset of the filtered text, correct_offset never decreases and never exceeds the original text's length, so corrected byte_start <= byte_end.", "quantifier": "every replacement sequence with non-empty matches, every pair of offsets", "why_tests_cant": "All offsets of all edit sequences.", "anchors": ["lindera-filter/src/character_filter.rs:correct_offset"]}
{"id": "C34", "title": "Regex character filter offsets are right", "statement": "The offset table returned by RegexCharacterFilter::apply maps match boundaries of the filtered text back to the original text for every pattern and replacement.", "quantifier": "every pattern, replacement and text", "why_tests_cant": "All patterns; it fails for empty matches and for replacements with capture references.", "anchors": ["lindera-filter/src/character_filter/regex.rs:RegexCharacterFilter::apply"]}
{"id": "C35", "title": "Corrected offsets lie on character boundaries of the original text", "statement": "After analysis with character filters, slicing the original text with a token's byte range never panics.", "quantifier": "every text, filter and tokenization", "why_tests_cant": "Fails only for tokens that end inside a growing replacement.", "anchors": ["lindera-filter/src/character_filter.rs:correct_offset", "lindera-analyzer/src/analyzer.rs:Analyzer::analyze"]}
{"id": "C36", "title": "Iteration marks are expanded to the repeated character", "statement": "JapaneseIterationMarkCharacterFilter replaces, in each maximal group of k iteration marks preceded by at least k characters, the j-th mark by the character k places before it (voiced/unvoiced for the kana marks), leaves all other characters alone and preserves the number of characters.", "quantifier": "every text and flag setting", "why_tests_cant": "All texts with any runs of marks.", "anchors": ["lindera-filter/src/character_filter/japanese_iteration_mark.rs:JapaneseIterationMarkCharacterFilter::apply", "lindera-filter/src/character_filter/japanese_iteration_mark.rs:JapaneseIterationMarkCharacterFilter::normalize"]}
{"id": "C37", "title": "Iteration-mark filter keeps byte offsets valid", "statement": "Because the filter returns no offset table, the filtered text must have the same character boundaries as the original.", "quantifier": "every text", "why_tests_cant": "Fails only if a repeated character has a UTF-8 length other than 3.", "anchors": ["lindera-filter/src/character_filter/japanese_iteration_mark.rs:JapaneseIterationMarkCharacterFilter::apply"]}
{"id": "C38", "title": "Offsets through a chain of character filters", "statement": "Analyzer::analyze corrects token offsets through all character filters in reverse order, so that a token whose ends are piece boundaries at every stage gets the byte range of its source in the original text.", "quantifier": "every chain of filters and every text", "why_tests_cant": "All chains.", "anchors": ["lindera-analyzer/src/analyzer.rs:Analyzer::analyze", "lindera-filter/src/character_filter.rs:correct_offset"]}
{"id": "C39", "title": "Keep-words and stop-words filters partition the tokens", "statement": "keep_words keeps exactly the tokens whose text is listed and stop_words exactly the others, in order and unchanged; each is idempotent.", "quantifier": "every token list and word set", "why_tests_cant": "All lists and sets.", "anchors": ["lindera-filter/src/token_filter/keep_words.rs:apply", "lindera-filter/src/token_filter/stop_words.rs:apply"]}
{"id": "C40", "title": "Part-of-speech keep/stop filters partition the tokens", "statement": "japanese_keep_tags keeps exactly the tokens whose part of speech (first four details, or only the first if fewer) equals a configured tag padded with '*', japanese_stop_tags exactly the others; likewise for the Korean filters on the first detail.", "quantifier": "every token list with details and every tag configuration", "why_tests_cant": "All lists and configurations.", "anchors": ["lindera-filter/src/token_filter/japanese_keep_tags.rs", "lindera-filter/src/token_filter/japanese_stop_tags.rs", "lindera-filter/src/token_filter/korean_keep_tags.rs", "lindera-filter/src/token_filter/korean_stop_tags.rs"]}
{"id": "C41", "title": "Length filter", "statement": "The length filter keeps exactly the tokens whose number of characters is within the configured bounds, in order and unchanged.", "quantifier": "every bounds and token list", "why_tests_cant": "All lists/bounds.", "anchors": ["lindera-filter/src/token_filter/length.rs:apply"]}
{"id": "C42", "title": "Compound-word filter merges exactly the maximal runs", "statement": "japanese_compound_word replaces every maximal run of two or more consecutive tagged tokens by one token whose text is the concatenation, whose byte range spans the run and whose position_length is the sum; other tokens are unchanged; total text is unchanged.", "quantifier": "every token list, tag set, and optional new tag", "why_tests_cant": "All lists with runs at any place.", "anchors": ["lindera-filter/src/token_filter/japanese_compound_word.rs:apply", "lindera-filter/src/token_filter/japanese_compound_word.rs:concat_token"]}
{"id": "C43", "title": "Kanji numerals are converted to their decimal value", "statement": "The number filter converts every canonical kanji numeral below 10^24 to its decimal representation.", "quantifier": "every natural number below 10^24, with or without explicit 一 before 十, 百, 千", "why_tests_cant": "10^24 numerals.", "anchors": ["lindera-filter/src/token_filter/japanese_number.rs:to_arabic_numerals", "lindera-filter/src/token_filter/japanese_number.rs:adjust_digits"]}
{"id": "C44", "title": "The number filter does not crash on arbitrary token text", "statement": "to_arabic_numerals returns for every string.", "quantifier": "every string", "why_tests_cant": "All strings; it fails e.g. for 百貨店.", "anchors": ["lindera-filter/src/token_filter/japanese_number.rs:adjust_digits"]}
{"id": "C45", "title": "Digit strings convert character by character", "statement": "A token with no unit characters is converted by replacing each numeral character by its ASCII digit and keeping all others.", "quantifier": "every string without unit characters", "why_tests_cant": "All strings.", "anchors": ["lindera-filter/src/token_filter/japanese_number.rs:to_arabic_numerals"]}
{"id": "C46", "title": "Katakana stem filter removes at most one final long-vowel mark", "statement": "The filter removes one final ー from a token exactly if the token is all katakana and longer than the minimum; otherwise the token is unchanged.", "quantifier": "every token and minimum", "why_tests_cant": "All strings.", "anchors": ["lindera-filter/src/token_filter/japanese_katakana_stem.rs:apply"]}
{"id": "C47", "title": "Text-rewriting token filters change nothing but the text", "statement": "uppercase, lowercase, mapping, base form, reading form, kana, katakana stem and number filters keep the number and order of tokens and leave byte ranges, positions, word ids and details unchanged.", "quantifier": "every token list", "why_tests_cant": "All lists.", "anchors": ["lindera-filter/src/token_filter/japanese_base_form.rs", "lindera-filter/src/token_filter/japanese_reading_form.rs", "lindera-filter/src/token_filter/korean_reading_form.rs", "lindera-filter/src/token_filter/uppercase.rs", "lindera-filter/src/token_filter/lowercase.rs", "lindera-filter/src/token_filter/mapping.rs"]}
{"id": "C48", "title": "Analyze without filters is tokenize plus details", "statement": "With no character and token filters Analyzer::analyze returns one token per tokenizer token, with the same text, byte range, position and word id, and its details.", "quantifier": "every text and dictionary", "why_tests_cant": "All texts.", "anchors": ["lindera-analyzer/src/analyzer.rs:Analyzer::analyze"]}
{"id": "C49", "title": "Dictionary kind and mode names round trip", "statement": "from_str(as_str(k)) = k for each dictionary kind (and mode name), and no other string is accepted.", "quantifier": "every kind/mode and every string", "why_tests_cant": "All strings.", "anchors": ["lindera-dictionary/src/lib.rs:DictionaryKind::as_str", "lindera-dictionary/src/lib.rs:DictionaryKind::from_str", "lindera-core/src/mode.rs:Mode::from_str"]}
{"id": "C50", "title": "Dictionary configuration dispatch", "statement": "load_dictionary_from_config uses the built-in dictionary if a kind is set (even if a path is set too), the path otherwise, and reports an argument error if neither is set; load_user_dictionary_from_config accepts only .csv (with kind) and .bin.", "quantifier": "every configuration", "why_tests_cant": "All configurations and file extensions.", "anchors": ["lindera-dictionary/src/lib.rs:load_dictionary_from_config", "lindera-dictionary/src/lib.rs:load_user_dictionary_from_config"]}
{"id": "C51", "title": "Tokenizer configuration JSON", "statement": "Deserializing a tokenizer configuration object does not depend on key order, defaults mode to normal, rejects unknown and duplicate keys and a missing dictionary.", "quantifier": "every JSON object, every key order", "why_tests_cant": "All objects.", "anchors": ["lindera-tokenizer/src/tokenizer.rs:TokenizerConfig::deserialize"]}
{"id": "C52", "title": "Tokenizer configuration survives serialization", "statement": "Serializing a TokenizerConfig to JSON and deserializing it gives the same configuration.", "quantifier": "every configuration", "why_tests_cant": "All configurations; it fails when user_dictionary is None.", "anchors": ["lindera-tokenizer/src/tokenizer.rs:TokenizerConfig"]}
{"id": "C53", "title": "CLI output formats reproduce the tokens", "statement": "The wakati output is the token texts separated by one space and ended by a newline; the mecab output has one line per token (text, tab, comma-joined details) and a final EOS line.", "quantifier": "every token list", "why_tests_cant": "All lists.", "anchors": ["lindera-cli/src/main.rs:wakati_output", "lindera-cli/src/main.rs:mecab_output"]}
{"id": "C54", "title": "Sources beyond the format limits are not silently corrupted", "statement": "A source with values that the compiled format cannot express (more words per surface, a larger connection matrix or larger ids and costs than fit) is rejected by the compiler, or nothing in it is lost or changed.", "quantifier": "all source files", "why_tests_cant": "needs sources at and beyond the packing limits, for every distribution of homographs", "anchors": ["lindera-dictionary-builder/src/dict.rs: DictBuilder::build", "lindera-core/src/prefix_dict.rs: PrefixDict::find_surface", "lindera-dictionary-builder/src/cost_matrix.rs: CostMatrixBuilder::build", "lindera-core/src/unknown_dictionary.rs: make_costs_array"]}
{"id": "C55", "title": "Base-form and reading-form filters use the registered form", "statement": "The base-form and reading-form token filters replace the text of every known word by the form registered for it in the dictionary and leave unknown words unchanged.", "quantifier": "every token list, dictionary kind and set of compiled-in dictionaries", "why_tests_cant": "All lists and details, including details shorter than the form column, on which the filters panic.", "anchors": ["lindera-filter/src/token_filter/japanese_base_form.rs:apply", "lindera-filter/src/token_filter/japanese_reading_form.rs:apply", "lindera-filter/src/token_filter/korean_reading_form.rs:apply"]}
{"id": "C56", "title": "Mapping token filter is the leftmost-longest replacement", "statement": "The mapping token filter can be built from every non-empty mapping with non-empty keys, and replaces in every token's text the leftmost longest keys by their values, leaving everything between them unchanged.", "quantifier": "every mapping and token list", "why_tests_cant": "All mappings with overlapping and nested keys, all texts.", "anchors": ["lindera-filter/src/token_filter/mapping.rs:apply"]}
{"id": "C57", "title": "User dictionaries built on the command line can be loaded", "statement": "Building a user dictionary on the command line from a source file writes one file with the extension bin and the source's stem in the destination directory, which is loaded as a compiled dictionary and gives exactly the user dictionary that loading the source directly gives. A source path without a file name is an I/O error.", "quantifier": "every source path, destination path, source contents and dictionary kind", "why_tests_cant": "All paths (several dots, trailing slashes, no extension, dot components) and all dictionaries.", "anchors": ["lindera-cli/src/main.rs:build", "lindera-dictionary-builder/src/user_dict.rs:build_user_dictionary", "lindera-dictionary/src/lib.rs:load_user_dictionary_from_config"]}
{"id": "C58", "title": "Source files are read as written", "statement": "When a dictionary, a connection matrix, character definitions, unknown-word definitions or a user dictionary are compiled, the text is read by its meaning: lines end with LF or CRLF, columns are the pieces between separators, words the non-empty pieces between white space, and a number is accepted exactly if it is an optionally signed decimal text whose value fits the type of the field, and is then stored as that value; no text is read as another number (no wrap-around, no truncation) and every value written in decimal is read back.", "quantifier": "every source text, every line, column and number text, and every value of the 16- and 32-bit integer types", "why_tests_cant": "The set of texts is infinite; boundary texts (plus signs, leading zeros, CR at line ends, values just outside a type, unusual white space) are rarely enumerated by tests.", "anchors": ["lindera-dictionary-builder/src/dict.rs: DictBuilder::build", "lindera-dictionary-builder/src/cost_matrix.rs: CostMatrixBuilder::build", "lindera-dictionary-builder/src/chardef.rs: CharacterDefinitionsBuilder", "lindera-dictionary-builder/src/unk.rs: UnkBuilder::build", "lindera-dictionary-builder/src/user_dict.rs: UserDictBuilder::build"]}
{"id": "C59", "title": "Building a dictionary writes exactly what was compiled", "statement": "Building a dictionary directory from sources that compile succeeds if no file operation fails; afterwards the seven files hold exactly the compiled data, whatever the directory contained before, and no other file is changed. It reports success only for sources that compile, and an error in the sources is returned as an error.", "quantifier": "every source directory, previous directory content, buffer behaviour and dictionary kind", "why_tests_cant": "All sources, all previous contents and all ways data reaches the buffered writers.", "anchors": ["lindera-ipadic-builder/src/ipadic_builder.rs: build_dictionary", "lindera-cc-cedict-builder/src/cc_cedict_builder.rs: build_dictionary", "lindera-dictionary-builder/src/dict.rs: DictBuilder::build", "lindera-dictionary-builder/src/utils.rs: compress_write"]}
{"id": "C60", "title": "A built dictionary loads back as what was compiled", "statement": "Loading a directory produced by a build without compression, or the files of a build with or without compression after they have been embedded into a dictionary crate, gives exactly the compiled words, values, details, character definitions, unknown words and connection costs. A directory that was compressed for embedding is refused when it is loaded by its path; it is never misread.", "quantifier": "every source directory that compiles, with and without compression", "why_tests_cant": "All sources; the round trip crosses compilation, compression, serialization and loading.", "anchors": ["lindera-dictionary/src/lib.rs: DictionaryLoader::load_dictionary", "lindera-ipadic/src/lib.rs: load_dictionary", "lindera-dictionary-builder/src/utils.rs: compress_write"]}
{"id": "C61", "title": "Failing writes are reported", "statement": "Whatever file operation fails while a dictionary is built, if the build reports success then all seven files are complete.", "quantifier": "every source directory and every pattern of failing or partial writes", "why_tests_cant": "Needs fault injection at every operating-system call, including those made when buffered writers are dropped.", "anchors": ["lindera-dictionary-builder/src/dict.rs: DictBuilder::build", "lindera-dictionary-builder/src/cost_matrix.rs: CostMatrixBuilder::build", "lindera-dictionary-builder/src/chardef.rs: CharDefBuilder::build", "lindera-dictionary-builder/src/unk.rs: UnkBuilder::build"]}
{"id": "C62", "title": "Interrupted builds are not taken for dictionaries", "statement": "Wherever a build is interrupted, each of the seven files is as before or a beginning of the new one, and no other file is changed; the connection matrix is written last; a directory left by an interrupted or failed build either does not load or is the complete new dictionary.", "quantifier": "every source directory, every crash point (between or inside any two writes), every previous directory content", "why_tests_cant": "All crash points.", "anchors": ["lindera-ipadic-builder/src/ipadic_builder.rs: build_dictionary", "lindera-dictionary/src/lib.rs: DictionaryLoader::load_dictionary", "lindera-core/src/connection.rs: ConnectionCostMatrix::load"]}
{"id": "C63", "title": "Compiled user dictionaries on disk", "statement": "Writing a compiled user dictionary succeeds if no file operation fails; if it reports success, whatever failed, the file loads back as exactly that dictionary; wherever it is interrupted, the file is the old one, the new one, or rejected when loaded; no other file is changed.", "quantifier": "every user dictionary, failing operation and crash point", "why_tests_cant": "All crash points and failing calls.", "anchors": ["lindera-dictionary-builder/src/user_dict.rs: build_user_dictionary", "lindera-dictionary/src/lib.rs: load_user_dictionary_from_bin"]}
{"id": "C64", "title": "Tokenization means what the source files say", "statement": "If the source directory of a dictionary can be read and its files fit together (categories defined before use, an unknown-word line for every category, context ids inside the connection matrix, sizes within the limits of the compiled format), then compiling succeeds, and a tokenizer over the result, with or without a user dictionary and in any mode, answers every text. The tokens are contiguous, lose nothing, and sentence by sentence form a segmentation of least total cost, where the candidate words are exactly the rows of the CSV files and the unknown words that char.def and unk.def allow, the costs are those of the rows, unk.def and matrix.def plus the mode's penalties, and the details shown by each token are those of its row (UNK for unknown words).", "quantifier": "all five dictionary kinds, all contents of the source files that fit together, all user dictionaries whose rows fit, both modes with all penalties, all input texts, all iteration orders of the hash maps", "why_tests_cant": "it relates arbitrary source files and arbitrary texts through the whole pipeline of parsers, compilers, lookups and the lattice; tests use one dictionary and a few sentences", "anchors": ["lindera-dictionary-builder/src/dict.rs: DictBuilder::build", "lindera-core/src/character_definition.rs", "lindera-core/src/unknown_dictionary.rs", "lindera-core/src/connection.rs", "lindera-core/src/viterbi.rs", "lindera-tokenizer/src/tokenizer.rs", "lindera-tokenizer/src/token.rs"]}
{"id": "C65", "title": "A dictionary that is built to disk and loaded again tokenizes as the source files say", "statement": "Building such a source directory into an output directory succeeds if no file operation fails, whatever the output directory contained before, and loading the output directory (without the builder feature compress), or a program into which its files were embedded (compressed or not), gives a dictionary with which every text is tokenized as C64 says.", "quantifier": "as C64, and all output paths, all previous contents of the disk, all ways in which data is cut into pieces for the buffered writers", "why_tests_cant": "tests build the one dictionary they download, into an empty directory", "anchors": ["lindera-ipadic-builder/src/ipadic_builder.rs: build_dictionary", "lindera-dictionary-builder/src/dict.rs", "lindera-dictionary/src/lib.rs: DictionaryLoader::load_dictionary"]}
{"id": "C66", "title": "A filter does what its kind and arguments say", "statement": "A character or token filter that is named by its kind with JSON arguments is made exactly if the arguments have the documented form for this kind, and then does what the arguments say: the mapping, regular expression, normalization and iteration mark filters replace the configured pieces with offsets that lead back, and each of the seventeen token filters keeps, merges or rewrites exactly the tokens its arguments select. Unknown kinds and malformed arguments are deserialization errors, invalid expressions argument errors, and nothing panics.", "quantifier": "all kinds, all JSON documents as arguments, all texts and all token lists", "why_tests_cant": "tests load a few correct argument documents per filter; every document and every token list must be covered", "anchors": ["lindera-filter/src/character_filter.rs: CharacterFilterLoader::load_from_value", "lindera-filter/src/token_filter.rs: TokenFilterLoader::load_from_value", "lindera-filter/src/character_filter/*.rs: from_value, new, apply", "lindera-filter/src/token_filter/*.rs: from_value, new, apply"]}
{"id": "C67", "title": "An analyzer configuration file is read as it is written", "statement": "An analyzer is made from a configuration file exactly if the file can be read, is JSON, and its document describes an analyzer: the listed character filters, tokenizer and token filters, all in the order of the file. The order of members and members that are overridden by a later one of the same name do not matter, and everything in the document that is not understood is an error.", "quantifier": "all files, all JSON documents", "why_tests_cant": "tests read a handful of correct files; the claim is about every document, including malformed ones", "anchors": ["lindera-analyzer/src/analyzer.rs: AnalyzerConfig::from_file, AnalyzerConfig::from_slice, Analyzer::from_config"]}
{"id": "C68", "title": "The command line and the configuration file agree", "statement": "A filter flag `kind:arguments` of the command line makes the same filter as an entry with this kind and these arguments in a configuration file, and a filter that needs no arguments can be named without them. The command `tokenize` reads the input line by line, analyzes each line with the analyzer that a configuration with the same dictionary, user dictionary, mode and filters describes, and prints the outputs in order up to the first line with an error. If no analyzer can be made, the format is unknown or the input file is missing, nothing is printed.", "quantifier": "all option values, flags, configuration documents, input files and standard inputs", "why_tests_cant": "there are no tests of the command line, and its options and inputs are unbounded", "anchors": ["lindera-cli/src/main.rs: tokenize", "lindera-filter/src/lib.rs: parse_cli_flag", "lindera-filter/src/character_filter.rs: load_from_cli_flag", "lindera-filter/src/token_filter.rs: load_from_cli_flag", "lindera-analyzer/src/analyzer.rs: Analyzer::from_config"]}
{"id": "C69", "title": "Definition files are read as written or rejected with an error", "statement": "Compiling a char.def, unk.def or matrix.def file either accepts it, and then every line has the meaning the documented format gives it, or reports an error (never a panic). The exact set of accepted texts is known, including the lenient forms.", "quantifier": "every text given as char.def, unk.def or matrix.def", "why_tests_cant": "The set of texts is infinite; malformed lines can appear anywhere and combine in any way.", "anchors": ["lindera-core/src/character_definition.rs:CharacterDefinitionsBuilder::parse", "lindera-core/src/character_definition.rs:ucs2_to_unicode", "lindera-core/src/unknown_dictionary.rs:parse_unk", "lindera-dictionary-builder/src/cost_matrix.rs:CostMatrixBuilder::build"]}
{"id": "C70", "title": "A configured analyzer does what sources, user dictionary and settings say", "statement": "Build well-formed source files into a directory and write a configuration file that names this directory (or, if its files are embedded into the program, the dictionary kind), a mode, filters and at most one user dictionary (CSV, or compiled). Loading the configuration succeeds, and analyze answers every text that the filters accept: the character filters rewrite the text as their settings say, in order; the rewritten text is cut into sentences and each one is segmented into words of the source files, the user dictionary and unknown words at least total cost; the token filters change these tokens as their settings say, in order; and each byte range is the range of the original text that the token comes from.", "quantifier": "all well-formed source directories, user dictionaries, filter settings, modes, configuration documents and texts", "why_tests_cant": "it composes the builder, the loader, the configuration reader, all filters and the tokenizer over every input; tests exercise each one on a few samples", "anchors": ["lindera-analyzer/src/analyzer.rs: Analyzer::from_file, Analyzer::analyze", "lindera-tokenizer/src/tokenizer.rs: Tokenizer::from_config, tokenize", "lindera-dictionary/src/lib.rs: DictionaryLoader", "lindera-filter/src/character_filter.rs: CharacterFilterLoader", "lindera-filter/src/token_filter.rs: TokenFilterLoader"]}
{"id": "C71", "title": "The tokenize command prints what sources and flags say", "statement": "Run with a dictionary directory built from well-formed sources (or the kind of an embedded dictionary), a user dictionary, filter flags and an output format, the tokenize command ends well for every input whose lines are UTF-8 and accepted by the filters, and prints for each line, in order, the tokens that the source files, the user dictionary and the flags say, in the output format.", "quantifier": "all well-formed source directories, user dictionaries, flags, output formats and inputs", "why_tests_cant": "whole runs of the command over every dictionary, flag list and input", "anchors": ["lindera-cli/src/main.rs: TokenizeArgs, tokenize, mecab_output, json_output, wakati_output", "lindera-dictionary/src/lib.rs: load_user_dictionary_from_config"]}
{"id": "C72", "title": "Only the words that occur in a text matter for its tokenization", "statement": "Two dictionaries built from the same definition files (char.def, unk.def, matrix.def), each with or without a user dictionary, whose word lists have the same words, in the same order, for every piece of text that occurs in a sentence of a text, give the same tokens for it: texts, byte ranges, positions and details. In particular adding a word, or a user dictionary, changes only texts in which one of the new words occurs.", "quantifier": "all pairs of well-formed source directories and user dictionaries, all modes, all texts", "why_tests_cant": "compares two dictionaries that number their words differently, for every text", "anchors": ["lindera-tokenizer/src/tokenizer.rs: Tokenizer::tokenize", "lindera-core/src/viterbi.rs: Lattice::set_text, calculate_path_costs, tokens_offset", "lindera-core/src/prefix_dict.rs: PrefixDict::prefix", "lindera-dictionary-builder/src/dict.rs: DictBuilder::build", "lindera-dictionary-builder/src/user_dict.rs: UserDictBuilder::build"]}
{"id": "C73", "title": "Builds are reproducible and do not depend on the order of the word lists", "statement": "Building twice from the same sources gives dictionaries that tokenize every text alike, whatever order hash maps iterate in. The same holds if the CSV files are read in another order, provided that no word is in two of the files.", "quantifier": "all well-formed source directories, orders of files, iteration orders of hash maps, user dictionaries, modes and texts", "why_tests_cant": "depends on the iteration order of hash maps, which differs from run to run, and ranges over all dictionaries and texts", "anchors": ["lindera-dictionary-builder/src/dict.rs: DictBuilder::build (glob, sort_by_key)", "lindera-dictionary-builder/src/chardef.rs: CharDefBuilder::build", "lindera-core/src/character_definition.rs: CharacterDefinitionsBuilder::build"]}
{"id": "C74", "title": "A dictionary is built exactly from readable sources, and everything else is reported", "statement": "Building a dictionary succeeds if and only if every source file is present and can be read to its end: char.def, unk.def, matrix.def and every CSV file with every record (words within the limits of the compiled format). No unreadable file, line or record is skipped silently. A directory that cannot be read is reported with an error, not with a panic, also when operating system calls fail.", "quantifier": "all source directories, dictionary kinds, output paths and failures of operating system calls", "why_tests_cant": "ranges over all contents of four kinds of files, and over all points at which a call can fail", "anchors": ["lindera-dictionary-builder/src/chardef.rs: CharDefBuilder::build", "lindera-dictionary-builder/src/unk.rs: UnkBuilder::build", "lindera-dictionary-builder/src/dict.rs: DictBuilder::build", "lindera-dictionary-builder/src/cost_matrix.rs: CostMatrixBuilder::build", "lindera-ko-dic-builder/src/ko_dic_builder.rs: build_dictionary", "lindera-cc-cedict-builder/src/cc_cedict_builder.rs: build_dictionary"]}
{"id": "C75", "title": "The build scripts of the dictionary crates recover from interruptions", "statement": "However earlier builds of a dictionary crate ended (killed at any moment, failing operating system calls, broken downloads), the cached source archive in OUT_DIR is absent or complete, and once complete it stays so. The next build without failures, with the cached archive or a complete answer of the server, succeeds and leaves exactly the dictionary that a first build would leave. A program that embeds this dictionary tokenizes as the archive's source files say. A build that reports success has compiled exactly the files of the archive, has cached the archive and leaves no partial download. With a cached archive no network is needed; without one and without network the build returns an error and changes nothing. On docs.rs a build succeeds without network. Failures are returned, not panics.", "quantifier": "all histories of runs, all kill points and failing calls in each of them, all answers of the server that are complete if they end without an error, all archives whose files are below the expected directory, all five crates", "why_tests_cant": "ranges over all sequences of interrupted runs and over every point at which each can be interrupted", "anchors": ["lindera-ipadic/build.rs: main", "lindera-ipadic-neologd/build.rs: main", "lindera-unidic/build.rs: main", "lindera-ko-dic/build.rs: main", "lindera-cc-cedict/build.rs: main"]}
{"id": "C76", "title": "Penalties matter only for the words that get them", "statement": "If decompose mode is given other penalties that make no word cheaper, and the tokens returned for a text have the same penalties as before, then exactly the same tokens are returned. In particular, raising the penalties per character changes nothing for a text whose tokens are all short enough to get none.", "quantifier": "all consistent dictionaries and user dictionaries, all pairs of penalty configurations, all texts whose sentences, of any length, have costs that fit into 32 bits", "why_tests_cant": "ranges over all texts, all dictionaries and all pairs of penalty settings; the order among equally cheap segmentations must be kept as well", "anchors": ["lindera-core/src/mode.rs: Penalty::penalty, Mode::penalty_cost", "lindera-core/src/viterbi.rs: Lattice::calculate_path_costs", "lindera-tokenizer/src/tokenizer.rs: Tokenizer::tokenize"]}
{"id": "C77", "title": "Decompose mode differs from normal mode only for long words", "statement": "Decompose mode can choose every segmentation that normal mode can choose. Its result is never worse than that of normal mode when penalties are counted, and if its tokens were available in normal mode too, they have no higher penalties. If no token of normal mode is long enough for a penalty, decompose mode returns the same tokens.", "quantifier": "all dictionaries, user dictionaries, non-negative penalties and texts whose sentences, of any length, have costs that fit into 32 bits", "why_tests_cant": "ranges over all texts and dictionaries, and over all segmentations of each text", "anchors": ["lindera-core/src/viterbi.rs: Lattice::set_text (search_mode, unknown_word_end), Lattice::calculate_path_costs", "lindera-core/src/mode.rs: Mode::is_search, Mode::penalty_cost"]}
{"id": "C78", "title": "A token filter applied twice does the same as applied once", "statement": "Listing a token filter twice in a row in an analyzer has the same effect as listing it once: applied to tokens it has already processed, the filter returns them unchanged.", "quantifier": "all token filters, configurations, token lists and texts", "why_tests_cant": "ranges over all token lists, in particular all texts produced by the filter itself", "anchors": ["lindera-filter/src/token_filter/*.rs: apply", "lindera-analyzer/src/analyzer.rs: Analyzer::analyze"]}
{"id": "C79", "title": "The order of independent token filters does not matter", "statement": "Two filters that only select tokens can be listed in either order, and a filter that selects by part of speech can be listed before or after any filter that rewrites texts: the analyzed tokens are the same.", "quantifier": "all pairs of such filters, configurations, token lists and texts on which both filters return", "why_tests_cant": "ranges over all token lists and all pairs of configurations", "anchors": ["lindera-filter/src/token_filter/*.rs: apply", "lindera-analyzer/src/analyzer.rs: Analyzer::analyze"]}
{"id": "C80", "title": "CSV dictionary files are read by the usual rules of CSV", "statement": "A dictionary or user dictionary file written by the usual rules of CSV (fields separated by commas, fields with commas, quotes or line ends in double quotes with inner quotes doubled, any line ends, empty lines ignored, optional byte order mark) yields exactly the records that were written, nothing trimmed; every table can be written so, and a text has one meaning. Where the numbers of fields must agree, a file in which they differ is rejected; a file without quotes that is not UTF-8 is rejected; no text is rejected for misplaced quotes.", "quantifier": "all tables, all ways to write them, all byte sequences, both settings of the check of the number of fields", "why_tests_cant": "ranges over all files, in particular all mixtures of quotes, commas, line ends and multi-byte characters", "anchors": ["lindera-dictionary-builder/src/dict.rs: DictBuilder::build (lines 76-100)", "lindera-dictionary-builder/src/user_dict.rs: UserDictBuilder::build (lines 44-55)", "Cargo.toml: csv"]}
{"id": "C81", "title": "Every dictionary compiled from well-formed sources tokenizes every text soundly", "statement": "If the source files of a dictionary (and of an optional user dictionary) are readable and fit together, then tokenizing any text with the compiled dictionary, in memory, loaded from the directory it was built into, or embedded, in any mode, returns tokens that lose nothing, have correct and adjacent byte ranges and positions, and do not depend on what lies beyond a delimiter; and raising the penalties of decompose mode does not change texts whose tokens get none.", "quantifier": "all source directories with matching files, all user dictionaries, all modes and texts", "why_tests_cant": "ranges over all dictionaries and all texts", "anchors": ["lindera-dictionary-builder/src/*.rs", "lindera-*-builder/src/*.rs: build_dictionary", "lindera-tokenizer/src/tokenizer.rs: tokenize"]}
{"id": "C82", "title": "The source files determine the tokens completely", "statement": "Of all segmentations of a sentence into words of the dictionary's source files, exactly one is returned, and it can be told from the source files alone: it is cheapest, and whenever another one is as cheap and ends with the same words, the word before the common end is longer, or has the same text and is written first (user dictionary before system dictionary, in the order of the rows; dictionary words before unknown words; unknown words by the rank of the category and the order of the lines in unk.def). So two tokenizers made from the same sources, compiled, loaded or built in, on any machine, cannot be told apart by their tokens.", "quantifier": "all source directories whose files fit together, all user dictionaries, both modes with all penalties, all texts whose sentences are short enough that 32-bit costs cannot overflow (30000 characters with the default penalties)", "why_tests_cant": "ranges over all dictionaries and texts, and over all ways in which costs can tie", "anchors": ["lindera-core/src/viterbi.rs: Lattice::set_text, Lattice::calculate_path_costs", "lindera-core/src/prefix_dict.rs: PrefixDict::prefix", "lindera-core/src/unknown_dictionary.rs: parse_unk", "lindera-dictionary-builder/src/dict.rs: DictBuilder::build", "lindera-tokenizer/src/tokenizer.rs: tokenize"]}
{"id": "C83", "title": "The JSON output can be read back", "statement": "With --output-format json, the text printed for a line of input is a JSON document by RFC 8259, and it has exactly one meaning: the list of the tokens with their texts, details, byte ranges and word ids, whatever characters these contain. From everything a run has printed, the tokens of every line can be recovered.", "quantifier": "all token lists (offsets of 64 bits), all texts and details, all inputs of any number of lines", "why_tests_cant": "ranges over all strings, including quotes, backslashes, control characters and line ends in texts and details, and over all outputs that might be confused", "anchors": ["lindera-cli/src/main.rs: json_output (lines 154-162), tokenize (lines 241-277)", "serde_json: to_string_pretty"]}
{"id": "C84", "title": "Configuration files and filter arguments are read by the grammar of JSON", "statement": "A configuration file configures an analyzer only if it is UTF-8 and JSON by RFC 8259 with at most 127 levels of nesting; every other file is a deserialization error, and every other argument of a filter flag a content error. A text has one meaning; layout, escapes and the order of members do not matter. Writing a part of the configuration as text and reading it again, as is done with the tokenizer's part, changes nothing.", "quantifier": "all byte sequences as files, all texts as arguments, all documents", "why_tests_cant": "ranges over all texts; that no text outside of the grammar is accepted and none inside is refused cannot be sampled", "anchors": ["lindera-analyzer/src/analyzer.rs: AnalyzerConfig::from_slice (lines 25-30), Analyzer::from_config (lines 63-70)", "lindera-filter/src/lib.rs: parse_cli_flag", "serde_json: from_slice, from_str, to_vec"]}
{"id": "C85", "title": "Builds are reproducible byte by byte", "statement": "Two builds of the same source directory end alike: both succeed or both report the same error. If they succeed, the seven files they write are equal byte by byte, whatever order hash maps iterate in, in which pieces data reaches the operating system, and whatever the output directories contained. With failing system calls, too, the iteration order of hash maps has no observable effect.", "quantifier": "all source directories (well-formed or not), all iteration orders, all output directories and earlier contents, all patterns of failing calls (for the last sentence)", "why_tests_cant": "the iteration order is random per process; a test sees a few orders of a few files", "anchors": ["lindera-core/src/character_definition.rs: CharacterDefinitionsBuilder::build (lines 231-244)", "lindera-dictionary-builder/src/chardef.rs: CharDefBuilder::build", "lindera-dictionary-builder/src/dict.rs: DictBuilder::build"]}
{"id": "C86", "title": "A dictionary directory and the built-in dictionary of the same sources do the same", "statement": "A program that loads the directory built from a source directory, and a program into which the dictionary built from the same sources is embedded (compressed or not), with the same user dictionary (a compiled file or CSV), have equal tokenizers. The tokenize command prints the same in both, in every output format and for every input, also where it ends with an error.", "quantifier": "all well-formed sources, user dictionaries, modes, filter flags, output formats and inputs (any bytes)", "why_tests_cant": "ranges over all sources and inputs", "anchors": ["lindera-dictionary/src/lib.rs: load_dictionary_from_config, load_dictionary_from_kind", "lindera-core/src/dictionary.rs", "lindera-cli/src/main.rs: tokenize"]}
{"id": "C87", "title": "The result of an analysis is determined by the source files, the settings and the text", "statement": "What is documented about character filters, segmentation (cheapest, with the rule for ties), token filters and offsets determines the result for every text: two implementations that follow it return tokens with the same texts, byte ranges, positions and details, and the command prints the same characters in the formats mecab and wakati.", "quantifier": "all settings that can be used, all texts that the filters accept and whose sentences, of any length, have costs that fit into 32 bits", "why_tests_cant": "uniqueness over all texts and all implementations", "anchors": ["lindera-analyzer/src/analyzer.rs: Analyzer::analyze", "lindera-cli/src/main.rs: tokenize"]}
{"id": "C88", "title": "Costs act in the expected direction", "statement": "Making a word cheaper never makes it disappear: if two dictionaries, or two user dictionaries, differ in the cost of one word only, every text has at least as many tokens for that word where it is cheaper. Making a word dearer changes nothing for texts in which it is not used. Raising connection costs changes nothing for texts in whose segmentation those connections are not used.", "quantifier": "all good sources and user dictionaries, words, new costs, modes, and texts whose sentences, of any length, have costs that fit into 32 bits", "why_tests_cant": "comparative statement over all pairs of dictionaries and all texts, including ties", "anchors": ["lindera-core/src/viterbi.rs: Lattice::calculate_path_costs", "lindera-dictionary-builder/src/dict.rs: DictBuilder::build", "lindera-tokenizer/src/tokenizer.rs: Tokenizer::tokenize"]}
{"id": "C89", "title": "Higher penalties do not give more penalized length", "statement": "In decompose mode with unchanged thresholds: raising the penalty for kanji words never increases the total length of kanji tokens above the threshold; the same for other words; raising both by the same amount never increases the sum. In general the changes of the penalties, weighted with the changes of the excess lengths, add up to at most 0.", "quantifier": "all complete dictionaries, all pairs of penalties with the same thresholds, all texts whose sentences, of any length, have costs that fit into 32 bits", "why_tests_cant": "comparative statement over all dictionaries, penalties and texts", "anchors": ["lindera-core/src/mode.rs: Mode, Penalty::penalty", "lindera-core/src/viterbi.rs: Lattice::calculate_path_costs"]}
{"id": "C90", "title": "Only the order of words with the same text matters", "statement": "Dictionaries, with their user dictionaries, that have the same words in the same order for every text and otherwise say the same give the same tokens, in whatever order words with different texts are written. A word whose text no other word has can be moved from the word list to the user dictionary. A word that has a cheaper twin with the same text and context ids, or an equally cheap one written before it, changes no text's tokens. A word not used for a text can be removed without changing the tokens of this text, if another word has the same text.", "quantifier": "all good sources and user dictionaries, words, modes, and texts whose sentences, of any length, have costs that fit into 32 bits", "why_tests_cant": "comparative statement over all pairs of dictionaries and all texts, including ties", "anchors": ["lindera-dictionary-builder/src/dict.rs: DictBuilder::build", "lindera-core/src/prefix_dict.rs: PrefixDict::prefix", "lindera-core/src/viterbi.rs: Lattice::set_text, Lattice::calculate_path_costs", "lindera-tokenizer/src/tokenizer.rs: Tokenizer::tokenize"]}
{"id": "C91", "title": "A word that is not used changes nothing", "statement": "Adding a word to a dictionary or a user dictionary changes the tokens of a text only if the new tokens show the word. (False in general: an expensive word can hide unknown words, and in normal mode a place that is only reached through it can propose an unknown word inside of which no others are looked for. True for compounds and further readings, whose text can be cut into words that are there already, and in decompose mode for words that hide no unknown words.)", "quantifier": "all good sources and user dictionaries, added words, modes, and texts whose sentences, of any length, have costs that fit into 32 bits", "why_tests_cant": "comparative statement over all pairs of dictionaries and all texts, including ties", "anchors": ["lindera-core/src/viterbi.rs: Lattice::set_text, Lattice::process_unknown_word, Lattice::calculate_path_costs", "lindera-dictionary-builder/src/dict.rs: DictBuilder::build", "lindera-tokenizer/src/tokenizer.rs: Tokenizer::tokenize"]}
{"id": "C92", "title": "Names of categories, numbers of contexts and details of words do not influence the segmentation", "statement": "If in the sources of a dictionary the character categories are renamed consistently (DEFAULT keeps its name), the context ids are renumbered (0 stays 0, and connection costs move with the ids), and details of words are changed, every text is cut into the same tokens with the same byte ranges and positions. If the details are kept, the tokens are the same altogether. The two dictionaries may be of different kinds.", "quantifier": "all pairs of good sources with user dictionaries, renamings, modes, and texts whose sentences, of any length, have costs that fit into 32 bits", "why_tests_cant": "comparative statement over all pairs of dictionaries and all texts, including ties", "anchors": ["lindera-core/src/viterbi.rs: Lattice::set_text, Lattice::process_unknown_word, Lattice::calculate_path_costs", "lindera-core/src/character_definition.rs: CharacterDefinitions", "lindera-core/src/unknown_dictionary.rs: UnknownDictionary", "lindera-core/src/connection.rs: ConnectionCostMatrix::cost", "lindera-dictionary-builder/src/chardef.rs: CharDefBuilder::build", "lindera-dictionary-builder/src/unk.rs: UnkBuilder::build", "lindera-dictionary-builder/src/cost_matrix.rs: CostMatrixBuilder::build", "lindera-dictionary-builder/src/dict.rs: DictBuilder::build"]}
{"id": "C93", "title": "The order of lines in definition files matters only between lines for the same thing", "statement": "Two dictionaries give the same tokens for every text if they have the same words for each text, give every character the same categories in the same order, define and describe these categories in the same way and give the same connection costs to the context ids in use. In particular the lines of char.def can be written in any order in which categories come before their ranges, except that ranges with a code point in common keep their order (exchanging those can change the tokens); the lines of unk.def in any order that keeps the order within a category; and the lines of matrix.def in any order if no pair of ids occurs twice.", "quantifier": "all pairs of good sources with user dictionaries, modes, and texts whose sentences, of any length, have costs that fit into 32 bits", "why_tests_cant": "comparative statement over all pairs of dictionaries and all texts, including ties", "anchors": ["lindera-core/src/character_definition.rs: CharacterDefinitions", "lindera-dictionary-builder/src/chardef.rs: CharDefBuilder::build", "lindera-dictionary-builder/src/unk.rs: UnkBuilder::build", "lindera-dictionary-builder/src/cost_matrix.rs: CostMatrixBuilder::build", "lindera-core/src/viterbi.rs: Lattice::set_text, Lattice::process_unknown_word"]}
{"id": "C94", "title": "Long sentences are cut at minimal cost while their costs fit into 32 bits", "statement": "A sentence of any length is cut into the cheapest words (with the same rule for ties as for short sentences) as long as the cost of every beginning of a cut fits into 32 bits with room for one more connection. In particular this holds if (largest cost of a word + largest cost of a connection in use) times the number of characters, plus the largest penalties, stays below 2^31 - 32768. The condition cannot be dropped: there is a dictionary and a sentence of 32768 characters where the tokens are not those of a cheapest segmentation.", "quantifier": "all good sources with user dictionaries, modes, texts of any length", "why_tests_cant": "statement over all dictionaries and texts of unbounded length; overflow only shows in sentences far longer than those in tests", "anchors": ["lindera-core/src/viterbi.rs: Lattice::calculate_path_costs", "lindera-tokenizer/src/tokenizer.rs: Tokenizer::tokenize"]}
{"id": "C95", "title": "A filter made from bytes is the filter of the document they hold", "statement": "If the bytes given to from_slice of a filter hold a JSON document, the result is that of making the filter from the parsed document, including the errors; only if an object of the document has two members with the same name it may be a deserialization error instead, and it always is if a field of the filter occurs twice. Bytes are accepted exactly if they hold an object or an array whose fields make up a setting of the filter; members that are not fields need only have the outer form of JSON. All other bytes are a deserialization error.", "quantifier": "all filters with a from_slice, all byte sequences, all sets of numbers that are finite", "why_tests_cant": "agreement of two readers (typed and by way of a value) on all byte sequences, including unknown members, order of members and nesting", "anchors": ["lindera-filter/src/character_filter/mapping.rs: MappingCharacterFilter::from_slice", "lindera-filter/src/character_filter/unicode_normalize.rs: UnicodeNormalizeCharacterFilter::from_slice", "lindera-filter/src/token_filter/length.rs: LengthTokenFilter::from_slice, LengthTokenFilterConfig::from_slice", "lindera-filter/src/token_filter/japanese_compound_word.rs: JapaneseCompoundWordTokenFilterConfig::from_slice", "lindera-filter/src/token_filter/japanese_keep_tags.rs: JapaneseKeepTagsTokenFilter::from_slice", "lindera-filter/src/token_filter.rs: TokenFilterLoader::load_from_value", "lindera-filter/src/character_filter.rs: CharacterFilterLoader::load_from_value"]}
{"id": "C96", "title": "Analyzed tokens are in the order of the text", "statement": "The tokens returned by an analysis, with any combination of filters, have byte ranges inside the original text, come in the order of the text, do not overlap, take at least one position each and do not share positions.", "quantifier": "all dictionaries (also inconsistent ones), all lists of character and token filters made from configurations, all texts for which the analysis returns", "why_tests_cant": "invariant through every combination of seventeen token filters and four character filters on every text", "anchors": ["lindera-analyzer/src/analyzer.rs: Analyzer::analyze", "lindera-tokenizer/src/tokenizer.rs: Tokenizer::tokenize", "lindera-filter/src/token_filter/japanese_compound_word.rs: JapaneseCompoundWordTokenFilter::apply, JapaneseCompoundWordTokenFilter::concat_token", "lindera-filter/src/character_filter/japanese_iteration_mark.rs: JapaneseIterationMarkCharacterFilter::apply", "lindera-filter/src/character_filter.rs: correct_offset"]}
{"id": "C97", "title": "Candidate words grow linearly with the sentence", "statement": "However often a lattice has been used before, the lattice built for a sentence with dictionaries compiled from good sources holds, besides its start and its end, at most one candidate word for every position of the sentence and every dictionary or user dictionary record whose surface starts there or unk.def line of a category of the character there. So it has at most two plus the number of characters times the number of records and unk.def lines entries, and as long as that is at most 2^32 the 32-bit numbers of the entries do not wrap.", "quantifier": "every dictionary kind, source directory, optional user dictionary, mode, sentence and history of the lattice", "why_tests_cant": "A bound on memory and on the range of the entry numbers must hold for every dictionary and every sentence; tests only see the sizes they use.", "anchors": ["lindera-core/src/viterbi.rs: Lattice::set_text, Lattice::process_unknown_word, Lattice::add_edge_in_lattice, EdgeId", "lindera-core/src/prefix_dict.rs: PrefixDict::prefix", "lindera-core/src/unknown_dictionary.rs: UnknownDictionary::lookup_word_ids"]}
{"id": "C98", "title": "Character filters that find nothing to do have no effect", "statement": "A character filter that finds nothing to change in the text it gets (no key of a mapping occurs, a regular expression does not match, all grapheme clusters are in normal form, there are no iteration marks of the configured sorts) can be taken out of an analyzer: the analysis gives the same tokens with the same offsets into the original text, or the same error, whatever the other filters are. If none of the character filters finds anything, the result is that of the analyzer without character filters.", "quantifier": "every character filter setting, every list of filters before and after it, tokenizer, list of token filters and text", "why_tests_cant": "The filters keep tables of offsets, and the claim is about their absence of effect in every chain of filters and on every text.", "anchors": ["lindera-filter/src/character_filter/mapping.rs: apply", "lindera-filter/src/character_filter/regex.rs: apply", "lindera-filter/src/character_filter/unicode_normalize.rs: apply", "lindera-filter/src/character_filter/japanese_iteration_mark.rs: apply", "lindera-analyzer/src/analyzer.rs: Analyzer::analyze"]}
{"id": "C99", "title": "A text can be analyzed sentence by sentence", "statement": "The analysis of a text whose first part ends in a sentence delimiter is the analysis of the first part followed by the analysis of the rest, in which the byte offsets are moved by the length of the first part and the positions by the number of its words; it succeeds exactly if the analyses of both parts succeed. So a long text can be analyzed sentence by sentence, also with character and token filters.", "quantifier": "every dictionary that has unknown words for every character, every list of character filters and token filters, every delimiter, and every pair of texts", "why_tests_cant": "Filters look at neighbouring characters and tokens, and offset corrections of all filters are combined; whether anything reaches across the border depends on the texts, the dictionary and the filters together.", "anchors": ["lindera-analyzer/src/analyzer.rs: Analyzer::analyze", "lindera-tokenizer/src/tokenizer.rs: tokenize", "lindera-filter/src/token_filter/japanese_compound_word.rs: apply", "lindera-filter/src/character_filter.rs: correct_offset"]}
{"id": "C100", "title": "Only the proportions of the costs matter", "statement": "If in the sources of a dictionary the costs of all words, unknown words and connections, and the penalties of the decompose mode, are multiplied by the same positive number, every text has the same tokens. The same holds if costs are moved between words and connections: every word with some left (or right) context id costs some amount more, and every connection with this context id as much less.", "quantifier": "all pairs of good sources with user dictionaries, positive factors, amounts for every context id, modes, and texts whose costs fit into the range of 32-bit costs", "why_tests_cant": "comparative statement over all pairs of dictionaries and all texts, including ties", "anchors": ["lindera-core/src/viterbi.rs: Lattice::calculate_path_costs", "lindera-core/src/connection.rs: ConnectionCostMatrix::cost", "lindera-core/src/mode.rs: Penalty::penalty", "lindera-dictionary-builder/src/cost_matrix.rs: CostMatrixBuilder::build"]}
{"id": "C101", "title": "Analysis returns for every text", "statement": "An analyzer whose tokenizer was built from good sources returns a result for every text, whatever its filters: character filters, tokenizer and offset correction never fail, and a token filter returns on the tokens that it gets.", "quantifier": "all analyzers with any lists of character and token filters over any tokenizer that answers every text, all texts, including texts that the filters' own replacements produce", "why_tests_cant": "any text may hit a panic in the indexing of offset tables, details or digits; the exact condition ranges over all texts and all filter combinations", "anchors": ["lindera-analyzer/src/analyzer.rs: Analyzer::analyze", "lindera-filter/src/character_filter.rs: correct_offset, add_offset_diff", "lindera-filter/src/character_filter/regex.rs: RegexCharacterFilter::apply", "lindera-filter/src/token_filter/japanese_number.rs: JapaneseNumberTokenFilter::apply", "lindera-filter/src/token_filter/japanese_katakana_stem.rs: JapaneseKatakanaStemTokenFilter::apply", "lindera-filter/src/token_filter/japanese_base_form.rs: JapaneseBaseFormTokenFilter::apply", "lindera-filter/src/token_filter/japanese_compound_word.rs: JapaneseCompoundWordTokenFilter::apply"]}
{"id": "C102", "title": "Bad configurations and dictionary files are reported as errors", "statement": "Whatever a configuration file, command line flags, a dictionary directory and a user dictionary file contain (any bytes, missing files included), making a tokenizer or analyzer from them ends with an analyzer or a returned error. It does not panic and does not run forever. A directory is accepted exactly if its seven files are there, the matrix has a header and the two serialized files can be read.", "quantifier": "all file systems, all contents of all files, all configurations and flags, all five dictionary kinds", "why_tests_cant": "ranges over all byte sequences in all files; tests can only try some damaged files", "anchors": ["lindera-analyzer/src/analyzer.rs: Analyzer::from_config", "lindera-dictionary/src/lib.rs: DictionaryLoader", "lindera-core/src/connection.rs: ConnectionCostMatrix::load", "lindera-dictionary-builder/src/user_dict.rs: build", "lindera-filter/src/token_filter.rs: load_from_value", "lindera-cli/src/main.rs: tokenize"]}
{"id": "C103", "title": "Damaged dictionaries and configurations cannot make lindera run forever", "statement": "With any dictionary whatsoever, also a damaged one, tokenizing any text returns tokens or panics; it never runs forever and never returns an error. If it returns, every sentence of the text is in the tokens unchanged, or there is no way to cut it into words and it has no token. The same holds for analyzers with any configured filters, which may also return the error for missing word details. Making an analyzer from any files ends, and the tokenize command ends on every finite input.", "quantifier": "all dictionaries and user dictionaries (consistent or not), all texts, all filter settings, all files, all command line flags and all inputs", "why_tests_cant": "termination on all damaged dictionaries and all texts is not settled by any number of runs", "anchors": ["lindera-core/src/viterbi.rs: Lattice::set_text, tokens_offset", "lindera-tokenizer/src/tokenizer.rs: Tokenizer::tokenize", "lindera-filter/src/character_filter/mapping.rs: apply", "lindera-filter/src/token_filter/mapping.rs: apply", "lindera-analyzer/src/analyzer.rs: Analyzer::analyze, from_file", "lindera-cli/src/main.rs: tokenize"]}
{"id": "C104", "title": "Builds and loads that run at the same time", "statement": "If several programs build dictionaries or user dictionaries at the same time, in whatever order their file operations happen, then in the end every file holds exactly what was to be written to it: as if each had run alone. Builds into different directories do not disturb each other. A program that loads a dictionary while it is being built gets the dictionary or an error.", "quantifier": "all numbers of programs, all sources, all schedules of their file operations (with writes done in parts, and with calls that fail), all previous contents of the disk, all moments at which files are read", "why_tests_cant": "ranges over all interleavings of file operations; a test sees only the schedules that happen", "anchors": ["lindera-dictionary-builder/src/chardef.rs: build", "lindera-dictionary-builder/src/unk.rs: build", "lindera-dictionary-builder/src/dict.rs: build", "lindera-dictionary-builder/src/cost_matrix.rs: build", "lindera-dictionary-builder/src/user_dict.rs: build_user_dictionary", "lindera-dictionary/src/lib.rs: DictionaryLoader"]}
{"id": "C105", "title": "Every analyzed token stands for words of the text", "statement": "Each token returned by an analysis with token filters stands for one or more of the words that the same analysis returns without token filters: it starts where the first of them starts, ends where the last of them ends, has the position and the word id of the first one, and its position length is their number; a token that stands for one word has the details of that word. No word is used by two tokens, and the order is kept. If no configured filter selects tokens, every word is used; if none rewrites texts, the text of a token is the concatenation of the texts of its words; without character filters it then is, if also no filter selects tokens, the part of the original text that the byte range of the token names.", "quantifier": "all dictionaries, all lists of token filters made from configurations, all character filters, all texts for which the analysis returns", "why_tests_cant": "an invariant through every combination and order of seventeen token filters on every text and dictionary", "anchors": ["lindera-analyzer/src/analyzer.rs: Analyzer::analyze", "lindera-filter/src/token_filter/japanese_compound_word.rs: JapaneseCompoundWordTokenFilter::apply, JapaneseCompoundWordTokenFilter::concat_token", "lindera-filter/src/token_filter.rs: TokenFilter", "lindera-filter/src/character_filter.rs: correct_offset"]}
{"id": "C106", "title": "Character filters influence the tokens only through the filtered text", "statement": "An analysis with character filters returns the tokens that the same analysis without character filters returns for the filtered text; only the byte offsets differ, and they are led back by one function that is determined by the filters and the text, the same for every tokenizer and every list of token filters. So different filters that give the same text give the same token texts, positions, word ids and details. If a character filter fails, the analysis fails with its error.", "quantifier": "all lists of character filters (whatever they do, also with wrong offsets), all texts, all tokenizers and all lists of token filters", "why_tests_cant": "ranges over all combinations of filters, dictionaries and texts; a dependence of later stages on the unfiltered text shows only for special combinations", "anchors": ["lindera-analyzer/src/analyzer.rs: Analyzer::analyze", "lindera-filter/src/character_filter.rs: CharacterFilter, correct_offset"]}
{"id": "C107", "title": "Token filters can be applied afterwards", "statement": "An analysis with configured token filters gives exactly what these filters, applied to the tokens that the analysis without token filters returns, give: the same tokens with the same byte offsets, and the same error or panic if the analysis or a filter fails. So the filters of an analyzer can be split in two stages at any place: what the first ones return from an analysis can be given to the others later.", "quantifier": "all tokenizers, all lists of token filters made from configurations, all texts; all character filters made from configurations, and arbitrary character filters if the analysis without token filters returns", "why_tests_cant": "the analyzer corrects byte offsets after the token filters, so the claim says that correction commutes with every list of filters on every text", "anchors": ["lindera-analyzer/src/analyzer.rs: Analyzer::analyze", "lindera-filter/src/token_filter.rs: TokenFilter", "lindera-filter/src/character_filter.rs: correct_offset"]}
