# A Lean 4 model of lindera

Source: `/repo` (BlueGreenMagick/lindera, pinned commit), read as text only.
Lean project: `/verif/lean` (`lake build`). Properties: `/verif/properties.jsonl`.
Claims and their theorems: `/verif/MANIFEST.json`. Seeded-bug log: `/verif/seeded/LOG.jsonl`.

## Layout

| Directory | Content |
|---|---|
| `Verif/Model/*` | one file per Rust file (or small group); every definition cites the file and lines it models |
| `Verif/Spec/*` | small specifications, written without the model's helper functions |
| `Verif/Proofs/*` | lemmas and invariants |
| `Verif/Props/*` | the property theorems (`c01_...`), each with `example`s that meet its hypotheses, and witnesses for the claims the code violates |

## Modelling conventions

* Rust `str`/`String` = `List Char` (Lean `Char` = Unicode scalar value, as in Rust). Byte lengths are
  UTF-8 lengths (`Char.utf8Size`), byte-indexed slicing is an explicit function that fails off a
  character boundary. Where the code works on bytes (double array, word details, files, paths) the model uses `List UInt8`
  with Lean's UTF-8 encoder.
* `Vec` = `List`; `&mut` = the new value is returned.
* A panic is the error value `Fail.panic`; a returned `LinderaError` is `Fail.err kind`; running out of fuel is `Fail.diverge` and is proved not to happen.
  Nothing is made total by a default value: out-of-range indices are panics.
* Integer types: path costs and penalties are `Int32` with wrapping arithmetic (release profile). Theorems about minimal costs
  carry the condition that the costs of a sentence fit (`CostsFit`; implied by a bound on its length, `NoOverflow`), under which no wrap happens; there the debug profile (which panics on overflow) agrees.
  `as u16`/`as i16`/`as u32` casts of file data are truncations. `usize` casts of signed numbers go through `asUsize`. Indices of in-memory
  vectors are `Nat` (texts below 4 GiB, fewer than 2^32 lattice edges; C97 says when the latter holds).
* Loops are folds or recursions. Loops without a structural bound (following back-pointers, the mapping filter) have fuel.
* `HashMap` iteration order is a parameter `hashOrder` that may be any permutation; theorems hold for all of them.
* Cargo features are a value `Features`; theorems hold for all combinations.
* Files: a file system is a function from paths to contents. Reading is atomic. Writing (`Model/BuildDir.lean`) is a program of operating system calls, each of which may fail, with
  `std::io::BufWriter` and its buffer, its explicit `flush` and the flush on drop; a crash may happen between any two calls or inside a write.

## Trusted base

* Lean 4.33 kernel; axioms `propext`, `Classical.choice`, `Quot.sound` only. `Verif/Audit.lean` (generated) prints the axioms of every theorem named in `MANIFEST.json`.
* The correspondence between the Rust text and the model definitions (by reading; every definition cites its lines).
* External crates and library functions. They are parameters of the model, or definitions that state their documented behaviour:

| External | In the model |
|---|---|
| `yada` double array, builder | parameter `DaBuilder` with hypothesis `Spec.YadaContract`: it accepts sorted distinct non-empty NUL-free keys with values below 2^31 and stores exactly them |
| `yada` double array, lookup | `DoubleArray.prefixSearch`/`exact`: the values of all keys that are prefixes of the query, by increasing length |
| `yada` byte format | parameter `DaFormat`, hypothesis `Spec.Faithful` (what is stored is viewed again) |
| `bincode` 1.3, `byteorder` | modelled byte by byte (`Model/Bincode.lean`, `Model/Basic.lean`) |
| `ureq`, `tar` | parameters: the pieces of the answer of the server, the entries of an archive and the pieces in which they are written |
| `flate2` | parameter `Flate`, hypothesis `Spec.FlateContract` (decoders invert encoders) |
| `csv` | parameter: the records of a file. `Model/Csv.lean` models the crate's reader from its documentation (its source is not in `/repo`), and C80 is about this model; the other theorems hold for any parameter |
| `glob` | the paths of a directory with extension `csv`, in any order the parameter gives; pattern errors are not modelled |
| `encoding_rs` | parameter: decoding is a total function from bytes to text |
| `regex` | parameter: the list of matches of a pattern, or failure to compile it |
| `unicode-segmentation`, `unicode-normalization`, `unicode-blocks`, `kanaria`, `str::to_uppercase`/`to_lowercase` | parameters (functions on texts) |
| `serde`, `serde_json` | derived (de)serialization modelled on JSON trees (`Model/Json.lean`), including repeated keys and `Value`'s sorted maps. The text syntax is modelled too (`Model/JsonText.lean`, after version 1.0.114 from memory): reading `Value` from bytes, and compact and pretty printing. Which texts of numbers beyond 64-bit integers are too large for `f64` is a parameter, and the value of such numbers is not modelled |
| `clap` | not modelled: the command line is given as the parsed argument structure |
| Rust std | `slice::binary_search*`, stable `sort`, `str::split*`, `trim`, `parse::<int>`, `char` predicates, `Path` (Unix) are definitions in `Model/Text.lean`, `Model/Basic.lean`, `Model/Config.lean` with their documented behaviour |

## What is modelled and what is not

Modelled, function by function: `lindera-core` (all of `src/`), `lindera-dictionary-builder`, the five `*-builder` crates, `lindera-dictionary`, `lindera-compress`, `lindera-decompress`,
the dictionary crates' loaders (`src/lib.rs`), `lindera-tokenizer`, `lindera-filter` (all filters, configurations and loaders), `lindera-analyzer`, `lindera-cli` (`list`, `tokenize`, `build`).

`build.rs` of the five dictionary crates (`Model/BuildScript.lean`: downloading, caching and unpacking the sources, the branch for docs.rs), as programs that can be interrupted at any call.
Not modelled there: cargo's decision to run a script, the URLs, losing written data in a power failure, and that a file can only be created in an existing directory. That the body of an
answer that ends without an error is complete is a hypothesis (`Spec.Honest`); a server that announces no length could violate it.

Not modelled: `lindera/src/lib.rs` (re-exports and tests), examples, benches, error message texts and backtraces, logging, memory limits, and
concurrency (the code has no threads; all state is owned).

## Properties: what is modelled and how it is proved

| Id | Model | Specification | Proof idea |
|---|---|---|---|
| C01–C06, C08, C10, C12, C13, C15 | `Viterbi`, `Tokenizer`: the lattice with its vectors, the scan over start positions, back pointers | `Tokens`, `Segmentation`, `History` | invariant over the scan (every edge is a candidate, `starts_at`/`ends_at` are exact, some position ahead is reachable), invariant over the cost pass, induction along back pointers; refinement of the reused lattice to a fresh one |
| C07, C09, C14 | same | `Segmentation`: abstract segmentations and their costs | dynamic-programming optimality by induction over end positions; 32-bit bound; ties by the order of edges, each tagged with the place where its word is written |
| C11 | `Viterbi` (modes) | in the statement | case analysis |
| C16–C20, C24, C28, C29, C54 | `WordEntry`, `PrefixDict`, `Connection`, `Unknown`, `UnkBuilder`, `DictBuilder`, `MatrixBuilder`, `UserDictBuilder` | `Builder`, `Matrix`, `Unk`, `UserDict`, `Details` | byte-level round trips, prefix sums of buffers, stable sorting |
| C21–C23 | `CharDef`, `CharDefBuilder` | `CharDef` | piecewise-constant function between boundaries; permutation invariance |
| C25–C27 | `Bincode`, `Compress` | `Storage` | combinator round-trip and prefix-rejection lemmas |
| C30, C48 | `Tokenizer`, `Analyzer` | `Details` | case analysis, map laws |
| C31–C38 | `CharFilter`, `Analyzer` | `CharFilter`, `Analyzer`: pieces of text and their replacements | segment lists; cumulative-difference invariant for the offset tables |
| C39–C47, C55, C56 | `TokenFilter` | `TokenFilter` | list induction; structural induction over numerals |
| C49–C52 | `Config`, `Json`, `Loader` | `Config` | finite case analysis, permutations |
| C53, C57 | `Cli` | `Cli` | induction over lines; path algebra |
| C58 | `Text`, the parsers of the builders | `Text`: lines, fields, numbers as relations | each reader is equivalent to its relation |
| C59–C63 | `BuildDir` | `BuildDir` | invariants over all runs of the write programs, for every failing call and every crash point |
| C64, C65 | all of the above | `Language`: the words and costs that the source files say | composition of the compiler, storage and lattice theorems |
| C66–C68 | `AnalyzerConfig` | `AnalyzerConfig`, `FilterEffect` | reading a document is equivalent to a relation between documents and settings; composition with C31–C56 |
| C69 | `CharDefBuilder`, `UnkBuilder`, `MatrixBuilder` | `Accepted` | each parser is equivalent to a relation between texts and contents; loops over lines by induction |
| C70 | everything between the source files and `Analyzer::analyze` | `EndToEnd` | composition of C65, C66, C67 and C38, by induction over the lists of filters |
| C71 | the `tokenize` command | `EndToEnd` | composition of C65, C66, C68 and C53; by induction over the lines |
| C72 | tokenization with two dictionaries | `Viterbi`, `Tokenizer`, `Relabel` | simulation: two tokenizers that find the same words up to their numbers build the same lattice up to these numbers, function by function; what is found comes from C17 and C28 |
| C73 | builds in another order | `Relabel`, `Builder` | instances of C72: the words of a surface come from one file, the compiled definitions do not depend on the hash order (C21) |
| C74 | `build_dictionary` under faults | `Acceptance` | success means that compilation succeeded (C59), which is equivalent to relations between texts and contents (C69); panics are excluded step by step for all faults |
| C75 | `BuildScript`: the build scripts under faults and kills | `BuildScript`: histories of runs | weakest preconditions with a crash invariant (the cached archive is complete, there is no partial download beside it, and the source directory contains only names of the archive), by induction over histories; the result of the last run comes from C59 and C61 |
| C76 | tokenization with two penalty settings | `Viterbi`, `Modes` | both cost passes run over the same edges; no edge gets cheaper, and along the returned path costs stay equal, so that every first minimum stays where it is (induction over the back pointers) |
| C77 | tokenization in normal and in decompose mode | `Viterbi`, `Modes` | the scan never gets stuck and decompose mode admits every word of normal mode; costs from C07; the equality of results as for C76 where both modes see the same words |
| C78 | every token filter on its own output | `TokenFilter`, `FilterOrder` | selection and forms directly; the number filter by an invariant on the characters it puts out; the compound filter by replaying its output next to its state |
| C79 | two neighbouring token filters | `TokenFilter`, `FilterOrder` | selecting is `filter` with a test on each token; part-of-speech tests do not see texts |
| C80 | the automaton of the CSV reader on bytes | `Csv` | simulation between bytes and characters; induction over the ways to write fields and records; the lines of a file without quotes |
| C81 | the compilers, loaders and the tokenizer together | `Guarantees`: what every text is promised, without conditions on compiled data | good sources give complete and consistent compiled dictionaries (as for C64); then C01–C05, C10 and C76 apply |
| C82 | the compilers and the tokenizer together | `Language`: places at which a word is written, the chosen segmentation | edges are tagged with the places they come from, in order; the first least predecessor is the first place; lifted to the source files; two chosen segmentations agree from the end |
| C83 | `JsonText` (printing), `Cli` | `JsonText`: the grammar of RFC 8259 as relations | every printed text is derivable in the grammar; a text has one derivation's value (the parser, which is complete, finds it); documents one after another are split by reading |
| C84 | `JsonText` (parsing), `AnalyzerConfig` | `JsonText` | parser sound (induction on its fuel) and complete (induction on derivations) for the grammar and 127 levels; composed with C67 and C68 |
| C85 | `BuildDir`, `CharDefBuilder` | `Reproducible` | the category names do not depend on the order in which they are filled in (C23); so compilation is equal, and by C59 the files |
| C86 | `BuildDir`, `Loader`, `AnalyzerConfig` (command line) | `Reproducible`, `EndToEnd` | both ways of loading give back the compiled parts (C60), which are equal by C85 |
| C87 | none (a theorem about the specification of C70 and C71) | `Determined`, `EndToEnd` | each relation of the specification is functional: longest matches, matches, mark groups, maximal runs, chosen segmentations (C82); token filters do not look at word ids |
| C88 | none (uses the specification of C64 and C82: sources, lexicon, chosen segmentation) | `Repriced` | segmentations of the two lexicons correspond word by word; their costs differ by the change of cost times the number of uses; comparing the two cheapest ones gives the inequality |
| C89 | none (uses the specification of C08 and the modes) | `Excess` | decompose mode has the same segmentations for all penalties; adding the two optimality inequalities gives the trade-off |
| C90 | none (uses the specification of C64 and C82) | `SameHomographs`, `Without`, `Alike` | the segmentations of the two lexicons are the same lists of words; the order of the candidates of one text decides ties; removing a word removes one slot of every candidate list |
| C91 | none (uses the specification of C64 and C82) | `CutInto`, `HidesNothing`, `SameUnknowns` | the scans of the two lexicons reach the same bytes up to words that start later (`Ahead`), so they look for the same unknown words; segmentations that do not use the word correspond; witnesses for the general claim |
| C92 | none (uses the specification of C64 and C82) | `Renamed`, `SameDetails` | the scan of the renamed lexicon proposes the renamed words at the same bytes, in the same order; costs agree; so the chosen segmentations correspond (`Renamed.corr`, `Corr.chosen`) |
| C93 | none (uses the specification of C64 and C82) | `SameMeaning`, `Reordered` | every notion in the definition of the chosen segmentation depends on the lexicon only through what `SameMeaning` keeps; reordered files have the same meaning; a witness that the order of overlapping ranges matters |
| C94 | none (uses the model of C07 and the specification of C82) | `Begins`, `costBefore`, `CostsFit` | the invariant of the lattice (each edge carries the wrapped cost of a cheapest beginning) needs only that the costs of the beginnings fit; bounds on costs and length give that; a witness with 32768 characters where wrapping changes the answer |
| C95 | `Model/FilterSlice`: `from_slice` of all filters, with serde_json's reading of a struct from text (members that are not fields are skipped with `ignore_value`) | `ConfigText.File` (grammar of accepted texts), `Skipped.*` (grammar of skipped members), `Json.Unrepeated` | the reader accepts exactly the grammar; the fields decide; reading a field and its parsed value gives the same setting up to the order of keys, hence the same filter |
| C96 | none (uses the model of C48 and C66) | `InOrder` | the tokenizer's tokens are in order; every token filter keeps that (selecting, rewriting, merging); character filters lead offsets back monotonically; `c96_sequence` needs only that they keep the order of offsets (`KeepsOrder`), not that offsets are right |
| C97 | none (uses the model of C07 and C54) | `Lexicon.candidates`, `Lexicon.allCandidates` | the number of edges added per position is bounded by counting: prefix lookup lists the records of every prefix once, the unknown words of a category are its unk.def lines; summed over the byte offsets that are character boundaries; categories of a character are distinct, which gives the linear bound |
| C98 | none (uses the model of C31-C38 and C48) | `NothingToDo`, `Passes` | each filter returns the text and an empty table (induction over the loop, the clusters, or by C36), and a step with an empty table leaves the state of the loop as it is |
| C99 | none (uses the model of the analyzer) | `moved`, `Apart`, `CutApart` | every token filter treats two lists of tokens separately (the compound filter if nothing is held back at the border or the next token is untagged) and commutes with moving tokens; a mapping without the delimiter in its keys cuts both parts separately; C05 for the words, offsets stage by stage. Part: filters that treat the parts separately; conditions for this for mappings, normalization and regular expressions |
| C100 | none (uses the specification of C64 and C82) | `Scaled`, `ScaledMode` | words are written at the same places and the cost of every segmentation is the same growing linear function of the old one, so cheapest segmentations and ties are the same (`Corr.chosen`, now also used for C92) |
| C101 | none (all filters and `Analyzer.analyze`) | `Handles`, `Reads`, `firstFilters`, `RegexContract` | every table that a character filter returns has as many differences as offsets (also for regular expressions with references or empty matches), so the correction never leaves it; the condition of each token filter is exact (`ReturnsIff`), and a chain of filters returns iff each can handle what the filters before it return; for the total part, enough details are an invariant of all filters |
| C102 | `Loader`, `AnalyzerConfig`, `UserDictBuilder`: everything that is read while an analyzer is made | `Reported`: a call returns a value or an error; `Presentable`: the files on which loading does | every step reports if its parts do; the panics in the model of loading are the matrix header, the columns of user rows (C29) and the parts of tags (C66), with the exact condition for directories |
| C103 | none (everything modelled that can loop) | `Ends`, `ReturnsOrPanics`: which outcomes a call has; `Sentences` and `Segmentation` for what is returned | `diverge` is the outcome of a loop that exceeds its fuel; it arises in three loops (the walk back through the lattice, two replacement loops). The left pointers go to earlier positions whatever the costs, and each replacement step advances, so the fuel suffices without any hypothesis on the dictionary; all other steps only pass outcomes on. `yada` on damaged arrays is the total parameter `DaFormat.view`; other loops of the crates are not modelled |
| C104 | none (the calls of `BuildDir`) | `Schedule`: programs that take turns; each has its own position in the files it has created, a write goes to this position and may be done in parts, creating a file empties it for everyone (file descriptors of Unix); `ReadDuring`: files read at different moments | invariant: a file is untouched, or begins with what the program that created it last has written; what a program has written is at every moment a beginning of the whole (C62), so writes of the same data by others change nothing |
| C105 | none (uses the model of C48 and C66) | `StandsFor`, `Drops`, `Rewrites`; the words are the tokens of the same analyzer without token filters | each filter groups the tokens it gets (selecting: some groups of one; rewriting: all groups of one; merging: runs); groups of groups are groups; offsets are corrected by the same function for tokens and words |
| C106 | none (uses the model of C48) | `FiltersTo`: the filters applied one after the other; `relocated` | the fold over the filters carries the text and a list of tables; correcting by a list of tables is one function of offsets |
| C107 | none (uses the models of C48 and of the token filters) | stated with `Analyzer.analyze` and the filters alone | every configured filter commutes with a change of byte offsets (from C99's splitting with an empty left part); the ends of a merged token are ends of words, so their correction returns |

Properties that the code violates are proved false with a witness (`..._fails`) and
the largest true part is proved as `..._partial`. `MANIFEST.json` lists the theorems of each property and says what is missing.

## Findings

The claims below are false of the code; each has a theorem with a witness or a family of witnesses.

* C06: the empty text panics on a fresh lattice. C15: after a sentence without segmentation the offsets are wrong.
* C18, C54: entries beyond the format's limits (32 homographs, matrix sizes from 2^15, ids from 2^16) are accepted and corrupt later lookups. Exactly: of n words with one surface n mod 32 are found (the higher bits of n go into the position), and texts are tokenized as if the sources contained only these words; with a backward size from 2^15 only lookups with forward id 0 are right (`c54_lookup`, `c54_user`, `c54_tokens`, `c20_any`).
* C22: category flags are stored by definition order and looked up by first mention. C24: ids of `unk.def` wrap.
* C29: user dictionary rows with one or two columns panic.
* C34, C35, C37: offsets are wrong after empty matches, capture references, inside replacements, and for iteration marks after characters that do not take three bytes.
* C40, C42, C66: tags with more than four parts panic, also while a configuration is read. C44: the number filter panics or is wrong on texts like `三千円`, `約千五百` (becomes `約500`) and `十四五`, and on `東京` when no tags are given.
* C46, C55: characters without a Unicode block and short details panic.
* C52: a configuration without user dictionary does not survive serialization. C53: `wakati` prints no line for an empty token list.
* C59: the Korean and Chinese builders panic on source errors. C61: a failing write of `dict.da` is lost (exactly: only a failure of its last write). C62: an interrupted build may be loaded; in a new directory tokenization with it panics or is right, never wrong.
* C67: filter entries that are not understood are ignored. C68: filters without arguments cannot be named on the command line.
* C69: a surrogate as a limit of a range in `char.def` is taken for U+FFFD, so that the range covers further characters. `matrix.def` with short lines or ids outside of the matrix panics.
* C71: a CSV user dictionary cannot be combined with `--dic-dir`: without `--dic-type` it is an error, with it the directory is ignored.
* C73: a word that is in two files with the same numbers shows the details of the file that is read first (an example beside the theorem).
* C74: a CSV record with less than four columns, a bad `matrix.def` header and a cost outside of the matrix panic; the Korean and the Chinese builders panic on every unreadable directory.
* C75: a run with `DOCS_RS` fails in a directory in which such a run was before (`create_dir`), and its dummy word list is compiled into the dictionary by a later normal run. If renaming the complete download fails, the script panics.
* C77: decompose mode also looks for unknown words inside the unknown word found last, so that texts without long words may be tokenized differently (`aaa` in the witness).
* C78: the katakana stem filter removes one more mark on each application, for every limit; the mapping filter replaces again what it has put out.
* C80: a file that is not UTF-8 can be accepted if it has quotes: the bytes of one character may be spread over a quoted field and what follows its closing quote.
* C91: adding a word can change the tokens of texts in which it is not used: with a word `bx` at a high cost, `abx` becomes `ab`, `x` instead of `a`, `bx`.
* C94: path costs are added in 32 bits without checks. A sentence of 32768 characters with the most extreme costs is cut wrongly in a release build (`c94_fails`; a debug build panics).
* C95: `from_slice` of a filter rejects a configuration in which a field occurs twice, while the last one counts when the same text is parsed first (as the analyzer does); and it accepts texts that are not JSON, since members that are not fields are only skipped (a lone surrogate, or a number too large for a float). In the code this also holds for bytes that are not UTF-8 in a skipped string; the model decodes UTF-8 first and does not cover such bytes.
* C96: with the iteration mark filter the byte range of a token can end behind the end of the text (`𠮷々` has seven bytes, the last token ends at byte 8), so that slicing the text with it panics. The same happens with a regex replacement that refers to groups and becomes longer than it is written (`c96_capture_fails`). A pattern that matches the empty text even loses the order of the tokens (`c96_empty_match_fails`).
* C99: text that a mapping removes is counted to the token before it: if `猫` is removed, the token `。` of `b。猫b` has the bytes 1 to 7. A compound word can contain a sentence delimiter and reach into the next sentence. Iteration marks at the beginning of a sentence repeat the delimiter before it.
* C101: analysis panics on some texts with the number filter (`二十日` as one word), with the katakana stem filter (a character in no Unicode block), and with the form filters if a word has fewer details than they read; in all other cases it returns.
* C102: loading a directory whose `matrix.mtx` has less than four bytes panics, as do tags with more than four parts (C66) and user rows with one or two columns (C29). Nothing else that is read while an analyzer is made can panic.
* C104: two builds of different sources into the same directory at the same time both report success and can leave a directory that loads with the words of one and the connection costs of the other (nothing locks the directory, and files are not renamed into place). A program that loads a dictionary while it is built can get a dictionary without words and no error, also if the directory is new. If two programs build the same dictionary and one is killed after emptying a file which the other has half written, the other reports success and the file begins with zeros. If one of two programs that write the same user dictionary fails, the other can report success and leave a file of which the beginning is zeros.
