{"id": "C01", "title": "Tokenization is optimal", "statement": "Tokenizing a byte string with any token set the tokenizer accepts adds to total_tokens exactly the smallest number of output tokens over all ways of cutting the string into pieces that are token strings (1 output token each) or sequence strings (as many output tokens as the sequence lists).", "quantifier": "all token sets accepted by FragmentTokenizer::new whose sequences refer to existing tokens, all byte strings of any length, all earlier contents of the statistics", "why_tests_cant": "The competing segmentations are exponentially many and the texts unbounded; tests compare a handful of totals.", "anchors": ["src/tokenizer2.rs:FragmentTokenizer::process_slice", "src/tokenizer2.rs:create_spans", "src/tokenizer2.rs:create_suffix_states"]}
{"id": "C02", "title": "Statistics describe one optimal segmentation", "statement": "After process_slice there is one single segmentation of the input, spelling exactly the input and of minimal cost, such that total_tokens grew by its number of output tokens, scanned_bytes by the input length, token_counts[i] by the number of times token i occurs in its output (also inside sequences), seq_counts[j] by the number of uses of sequence j, and pair_counts[a*ntokens+b] by the number of places where token piece b immediately follows token piece a; nothing else changes.", "quantifier": "all accepted token sets whose sequences refer to existing tokens, all byte strings, all earlier statistics", "why_tests_cant": "Relates five counters to a single hidden segmentation for every text; a test can only check literal totals.", "anchors": ["src/tokenizer2.rs:FragmentTokenizer::update_stats", "src/tokenizer2.rs:process_slice", "src/stats2.rs:TokenStats"]}
{"id": "C03", "title": "Tokenizer construction fails exactly on unusable token sets; tokenizing never panics", "statement": "FragmentTokenizer::new succeeds if and only if all token strings and sequence strings are non-empty and pairwise distinct and every one of the 256 bytes is itself a token string or a sequence string; after it succeeds process_slice never panics and its loops terminate, for any input, when the sequences refer to existing tokens.", "quantifier": "all token sets; all byte strings", "why_tests_cant": "A panic-freedom claim over every token set and text; tests sample a few sets.", "anchors": ["src/tokenizer2.rs:FragmentTokenizer::new", "src/tokenizer2.rs:create_spans", "src/tokenizer2.rs:create_suffix_states", "src/tokenizer2.rs:process_slice"]}
{"id": "C04", "title": "Tie-breaking is deterministic: the longest last piece wins", "statement": "Among all optimal segmentations, the one whose statistics are reported is the one obtained by cutting, from the end of the text, always the longest piece that still is the end of an optimal segmentation of the text up to that point.", "quantifier": "all accepted token sets whose sequences refer to existing tokens, all byte strings", "why_tests_cant": "Needs a statement about every optimal alternative at every position.", "anchors": ["src/tokenizer2.rs:FragmentTokenizer::process_slice"]}
{"id": "C05", "title": "Accounting identity of the statistics", "statement": "After tokenizing any list of samples the sum of token_counts equals total_tokens, scanned_bytes equals the summed sample lengths, the bytes spelled by all counted token and sequence pieces add up to scanned_bytes, and total_tokens of several samples is the sum of the per-sample optima.", "quantifier": "all accepted token sets whose sequences refer to existing tokens, all finite lists of samples", "why_tests_cant": "Unbounded number of samples and texts.", "anchors": ["src/batch_tokenize.rs:tokenize_file_sync", "src/stats2.rs:TokenStats::merge", "src/tokenizer2.rs:update_stats"]}
{"id": "C06", "title": "Adding a token never makes tokenization worse", "statement": "If a token set is accepted and its sequences list at least one token, then after add_token of any new non-empty string (not already a token) the set is still accepted and total_tokens for any list of samples is less than or equal to what it was.", "quantifier": "all accepted token sets whose sequences refer to existing tokens, all byte strings to add, all sample lists", "why_tests_cant": "Monotonicity over all texts; note that add_token may delete a sequence.", "anchors": ["src/tokenset.rs:TokenSet::add_token", "src/batch_tokenize.rs:tokenize_file"]}
{"id": "C07", "title": "Parallel tokenization equals sequential tokenization", "statement": "For every number of worker threads, every interleaving of sends, receives, processing and result messages, if the parallel tokenize_file returns, its statistics are identical in every field to those of tokenize_file_sync on the same samples.", "quantifier": "all accepted token sets whose sequences refer to existing tokens, sample lists, thread counts >= 1 and schedules", "why_tests_cant": "Schedules cannot be enumerated by tests; samples below 32 MiB never even take the parallel path.", "anchors": ["src/batch_tokenize.rs:tokenize_file", "src/batch_tokenize.rs:worker", "src/batch_tokenize.rs:tokenize_file_sync", "src/stats2.rs:TokenStats::merge"]}
{"id": "C08", "title": "Parallel tokenization neither deadlocks nor runs forever", "statement": "For an accepted token set, non-empty samples and at least one worker, every execution of the parallel tokenize_file is finite and whenever main has not finished some thread can take a step; so every schedule ends with main returning.", "quantifier": "all sample lists, thread counts >= 1, all schedules, job-queue capacity 4", "why_tests_cant": "Liveness under every schedule.", "anchors": ["src/batch_tokenize.rs:tokenize_file", "src/batch_tokenize.rs:worker"]}
{"id": "C09", "title": "A failing worker must not hang the run", "statement": "If tokenizing some sample fails inside a worker thread (for instance an empty sample hits the worker's assertion), the run should end with an error rather than block forever.", "quantifier": "all schedules of a run in which at least one sample makes its worker panic", "why_tests_cant": "Depends on the schedule and on a fault; main keeps its own result sender alive, so recv never reports disconnection.", "anchors": ["src/batch_tokenize.rs:tokenize_file", "src/batch_tokenize.rs:worker"]}
{"id": "C10", "title": "The tokenizer cache is transparent", "statement": "After any history of get_stats and get_stats_with_pairs calls on one TokenizerCache, get_stats(ts) returns exactly what a fresh tokenization of the sorted token set would return (with pair counts dropped), and get_stats_with_pairs returns exactly the fresh tokenization with pairs.", "quantifier": "all call histories over token sets with distinct tokens and sequences of at least two tokens, all samplers, thread counts and schedules", "why_tests_cant": "All histories; a collision of keys anywhere in the history would silently return another set's numbers.", "anchors": ["src/batch_tokenize.rs:TokenizerCache::get_stats", "src/batch_tokenize.rs:TokenizerCache::get_stats_with_pairs", "src/batch_tokenize.rs:TokenizerCache::get_key"]}
{"id": "C11", "title": "The cache key identifies the token set", "statement": "Two token sets with distinct tokens, whose declared number of ext tokens is right and all of whose sequences list at least two tokens, have the same JSON cache key only if they are the same token set (a one-token sequence is not written, so without that condition two different sets can share a key).", "quantifier": "all pairs of token sets", "why_tests_cant": "Injectivity over an infinite domain.", "anchors": ["src/batch_tokenize.rs:TokenizerCache::get_key", "src/tokenset.rs:TokenSet::to_json", "src/tokenset.rs:bytes_to_json"]}
{"id": "C12", "title": "Sorting a token set keeps its meaning", "statement": "sort permutes the tokens into ascending order (ext tokens first, then byte-lexicographic), orders sequences by string, and every sequence still lists the same tokens for its string after renumbering; sort is idempotent and two sets with the same distinct tokens and the same distinct sequences (as sets) sort to the identical set.", "quantifier": "all token sets whose sequences refer to existing tokens", "why_tests_cant": "Index renumbering must be right for every permutation.", "anchors": ["src/tokenset.rs:TokenSet::sort", "src/tokenset.rs:Token::cmp", "src/tokenset.rs:Sequence::cmp"]}
{"id": "C13", "title": "Removing a token leaves the rest unchanged", "statement": "remove_token of an in-range token not used by any sequence removes exactly that one token; every other token stays and every sequence still lists the same tokens for its string; if a sequence uses the token it panics; removing a token longer than one byte from an accepted set leaves an accepted set.", "quantifier": "all token sets, all token indices", "why_tests_cant": "Swap-remove renumbers an index in every sequence; correctness needed for all positions.", "anchors": ["src/tokenset.rs:TokenSet::remove_token"]}
{"id": "C14", "title": "Adding a token gives it a token and drops only its own sequence", "statement": "add_token of a non-empty string returns the index at which the new token is stored, keeps all earlier tokens at their indices, removes exactly the sequences for that string, and keeps every other sequence; find_token then finds it; adding an empty string panics.", "quantifier": "all token sets, all byte strings", "why_tests_cant": "All sets and strings.", "anchors": ["src/tokenset.rs:TokenSet::add_token", "src/tokenset.rs:TokenSet::find_token"]}
{"id": "C15", "title": "Bits encodings are positional codes of the byte", "statement": "In the sets made by new_bits1, new_bits2 and new_bits4 there is exactly one sequence for each of the 256 bytes, it consists of 8, 4 or 2 ext tokens, and reading their numbers as base-2, base-4 or base-16 digits, most significant first, gives the byte back.", "quantifier": "all 256 bytes, both processings and paragraph flags", "why_tests_cant": "The repository tests only lengths of lists.", "anchors": ["src/tokenset.rs:TokenSet::new_bits1", "src/tokenset.rs:TokenSet::new_bits2", "src/tokenset.rs:TokenSet::new_bits4"]}
{"id": "C16", "title": "Tokenization is lossless", "statement": "For any token set of one of the built-in families (bits1/2/4 sets with any added tokens, bytes sets, and byteshuff sets), if two texts are tokenized to the same list of tokens, by any segmentations, then the texts are equal; moreover a decoder exists that maps the token list back to the text.", "quantifier": "all token sets of the families, all texts, all segmentations", "why_tests_cant": "Unique decodability ranges over all pairs of texts.", "anchors": ["src/tokenset.rs:TokenSet", "src/optimize_bytes.rs:HuffOptimizer", "src/optimize_bytes.rs:optimize_bytes_tokenset"]}
{"id": "C17", "title": "Saved token sets load back unchanged", "statement": "TokenSet::from_json applied to to_json of a token set gives back the same token set, including its type, processing, paragraph flag, tokens and sequences.", "quantifier": "all sorted token sets of every type", "why_tests_cant": "All token sets; the repository test only checks that loading does not panic.", "anchors": ["src/tokenset.rs:TokenSet::from_json", "src/tokenset.rs:TokenSet::to_json", "src/main.rs:read_token_set", "src/main.rs:load_save_tokens"]}
{"id": "C18", "title": "Single tokens survive JSON", "statement": "parse_token(to_json(t)) = t for every token, whether its bytes are valid UTF-8 (stored as a string), invalid (stored as an array of numbers) or it is an ext token (stored as a number); and different tokens have different JSON.", "quantifier": "all byte strings and all 256 ext tokens", "why_tests_cant": "All byte strings including invalid UTF-8.", "anchors": ["src/tokenset.rs:parse_token", "src/tokenset.rs:Token::to_json", "src/tokenset.rs:bytes_to_json"]}
{"id": "C19", "title": "The file name identifies size, processing and type", "statement": "Two token sets have the same name() if and only if they have the same number of tokens, the same processing and the same type.", "quantifier": "all pairs of token sets", "why_tests_cant": "Injectivity over an infinite domain; a clash silently overwrites a saved token set.", "anchors": ["src/tokenset.rs:TokenSet::name", "src/main.rs:save_tokens", "src/optimize.rs:save_tokens"]}
{"id": "C20", "title": "caps-words processing is reversible", "statement": "process is reversible: two different texts never give the same processed text (README: 'optional reversible processing stage').", "quantifier": "all texts; in particular all texts free of the three marker characters whose letters have one-to-one case mappings, e.g. all ASCII text without control characters 0x14-0x16", "why_tests_cant": "Injectivity over all pairs of texts.", "anchors": ["src/processing.rs:process", "src/processing.rs:add_word", "README.md"]}
{"id": "C21", "title": "Line-by-line processing equals whole-text processing", "statement": "For text with Unix line ends that ends in a newline, process_file writes exactly process(text) applied to the whole text; so words and spaces at line boundaries are treated the same.", "quantifier": "all texts with Unix line ends, all line lengths", "why_tests_cant": "All texts.", "anchors": ["src/processing.rs:process_file", "src/processing.rs:process"]}
{"id": "C22", "title": "Word markers are placed as documented", "statement": "process(text) equals the documented word-level rewriting: every maximal run of letters is replaced by its case-marked lowercase form followed by exactly one end-of-word marker, a single space between two words is removed, and all other characters are copied in order.", "quantifier": "all texts", "why_tests_cant": "A state machine against a declarative description, for all texts.", "anchors": ["src/processing.rs:process", "src/processing.rs:add_word"]}
{"id": "C23", "title": "The in-memory sampler partitions the data", "statement": "Iterating a MemorySampler with positive chunk size terminates and the raw slices it takes are non-empty, at most chunk_size long and concatenate, in order, to exactly the data; with chunk size 0 and non-empty data it never terminates.", "quantifier": "all data, all chunk sizes", "why_tests_cant": "All data and chunk sizes.", "anchors": ["src/input/memory_sampler.rs:MemoryIterator::next", "src/input/util.rs:find_paragraph_end"]}
{"id": "C24", "title": "The file sampler reads the whole file once under any short reads", "statement": "With max_samples = None and positive sample size, for every sequence of short reads the operating system may return, the buffers taken by FileIterator are non-empty, at most sample_size long and concatenate, in order, to exactly the file contents, and the iteration terminates.", "quantifier": "all file contents, sample sizes >= 1 and read-length schedules", "why_tests_cant": "Short reads are chosen by the OS; tests see one schedule.", "anchors": ["src/input/file_sampler.rs:FileIterator::next"]}
{"id": "C25", "title": "Sampling valid UTF-8 neither fails nor changes bytes", "statement": "If the input is valid UTF-8, every sample handed to the tokenizer carries exactly the bytes of its slice of the input (no replacement characters, no panic).", "quantifier": "all valid UTF-8 inputs and chunk sizes", "why_tests_cant": "Depends on where chunk boundaries fall relative to multi-byte characters, for all inputs.", "anchors": ["src/input/sample.rs:Sample::from_bytes", "src/input/sample.rs:Sample::from_vec", "src/input/memory_sampler.rs", "src/input/file_sampler.rs"]}
{"id": "C26", "title": "Samples end at paragraph boundaries when possible", "statement": "Every sample of a MemorySampler or (full-read) FileSampler except the last ends just after a blank line (two newlines) whenever its window of chunk_size bytes contains one, and then at the last such position; otherwise it has exactly chunk_size bytes. find_paragraph_end(data, end) is the largest such position at most end, or end if there is none.", "quantifier": "all data, positions and chunk sizes", "why_tests_cant": "All data.", "anchors": ["src/input/util.rs:find_paragraph_end", "src/input/memory_sampler.rs:MemoryIterator::next", "src/input/file_sampler.rs:FileIterator::next"]}
{"id": "C27", "title": "Down-sampling keeps whole paragraphs in order", "statement": "sample_from_file cuts the file into paragraphs (each ending in a blank line, except the last) that concatenate to the file, and the sampled data is the concatenation, in order, of some of those paragraphs, each taken whole; a non-empty file sampled with positive size should give non-empty data.", "quantifier": "all files, sizes and rounding behaviours of the share comparison", "why_tests_cant": "All files; floating-point 0/0 decides the first paragraph.", "anchors": ["src/input/memory_sampler.rs:MemorySampler::sample_from_file"]}
{"id": "C28", "title": "Extracting a valid UTF-8 slice", "statement": "extract_valid_utf8_slice applied to any contiguous piece of valid UTF-8 data that contains a character start returns a contiguous sub-slice that is valid UTF-8 and loses fewer than 8 bytes; on an empty piece or a piece with only continuation bytes it panics.", "quantifier": "all valid UTF-8 data and all cut positions", "why_tests_cant": "All cut positions in all texts.", "anchors": ["src/input/util.rs:extract_valid_utf8_slice", "src/input/preloaded_sampler.rs"]}
{"id": "C29", "title": "The bits optimizer returns a set of the requested size", "statement": "SimpleBytesOptimizer::optimize_bytes on an accepted bits set with a requested number between n_ext and n_ext+256 of ext-plus-byte tokens returns an accepted set of the same type and processing with exactly that many ext and single-byte tokens plus exactly the long tokens of the input, its sequences being the positional codes of the bytes without tokens; outside this range it panics.", "quantifier": "all accepted bits token sets, all statistics, all requested sizes", "why_tests_cant": "All sets and counts.", "anchors": ["src/optimize_bytes.rs:SimpleBytesOptimizer::optimize_bytes"]}
{"id": "C30", "title": "The bits optimizer picks the most frequent bytes", "statement": "Among all choices of the same number of bytes, the bytes SimpleBytesOptimizer turns into tokens minimise the number of output tokens spent on bytes for the given counts.", "quantifier": "all count vectors, all sizes, all alternative choices of bytes", "why_tests_cant": "Exponentially many alternatives.", "anchors": ["src/optimize_bytes.rs:SimpleBytesOptimizer::optimize_bytes", "src/optimize.rs:count_tokens_in_bytes"]}
{"id": "C31", "title": "Huffman byte sets cover every byte exactly once and are decodable", "statement": "optimize_bytes_tokenset and HuffOptimizer::optimize_bytes with at least 3 ext-plus-byte tokens terminate without panic and return an accepted set in which every byte has either its own token or exactly one sequence; every sequence is one single-byte token followed by one or more ext tokens; no two sequences list the same tokens; all long tokens are kept.", "quantifier": "all positive byte counts, all requested sizes >= 3", "why_tests_cant": "A recursive greedy construction with binary searches that panic on equality; all count vectors.", "anchors": ["src/optimize_bytes.rs:HuffOptimizer::optimize_bytes", "src/optimize_bytes.rs:optimize_bytes_tokenset", "src/optimize_bytes.rs:optimize_ext_encoding", "src/optimize_bytes.rs:optimize_splits", "src/optimize_bytes.rs:node_to_split"]}
{"id": "C32", "title": "Huffman groups are led by their most frequent byte", "statement": "optimize_splits cuts the byte range into consecutive non-empty groups, min(parts, number of bytes) many, and the top byte of each group has the largest count in the group; that byte gets the shortest code of the group.", "quantifier": "all strictly ordered count vectors, parts >= 1", "why_tests_cant": "All count vectors.", "anchors": ["src/optimize_bytes.rs:optimize_splits", "src/optimize_bytes.rs:node_to_split"]}
{"id": "C33", "title": "BPE never adds an existing token", "statement": "add_token_bpe on statistics of a tokenization never proposes a string that already is a token, so the resulting token set is still accepted by the tokenizer.", "quantifier": "all accepted token sets, all sample lists", "why_tests_cant": "Follows only from optimality of tokenization: an existing token for the pair would have been used.", "anchors": ["src/optimize.rs:add_token_bpe", "src/tokenizer2.rs:process_slice"]}
{"id": "C34", "title": "BPE adds the most frequent admissible pair", "statement": "If some pair with a positive count concatenates to a string with no text after a blank line, add_token_bpe adds the concatenation of such a pair with the largest count and reports that count.", "quantifier": "all statistics", "why_tests_cant": "All pair-count tables.", "anchors": ["src/optimize.rs:add_token_bpe", "src/optimize.rs:is_valid_token"]}
{"id": "C35", "title": "Tokens never span paragraphs", "statement": "No token added by add_token_bpe has a non-newline byte after two consecutive newlines.", "quantifier": "all statistics", "why_tests_cant": "All statistics; the fallback when every pair is inadmissible is easily missed by tests.", "anchors": ["src/optimize.rs:add_token_bpe", "src/optimize.rs:is_valid_token", "src/tokenset.rs:TokenSet::split_paragraphs"]}
{"id": "C36", "title": "Every optimization step improves or grows the set", "statement": "optimization_step on a valid set of the family returns None or a valid set that either has strictly fewer total tokens on the sampled data or has more tokens than before but at most ntokens.", "quantifier": "all samplers, valid token sets, orders chosen by unstable sorts", "why_tests_cant": "All data and all tie orders.", "anchors": ["src/optimize.rs:optimization_step", "src/optimize.rs:remove_add_token", "src/optimize.rs:add_token"]}
{"id": "C37", "title": "Optimization terminates", "statement": "The optimization loop of optimize_tokenset_impl stops after finitely many steps for every input, whatever the unstable sorts and the clock do.", "quantifier": "all samplers, valid starting sets, tie orders and clock readings", "why_tests_cant": "Termination over all inputs.", "anchors": ["src/optimize.rs:optimize_tokenset_impl", "src/optimize.rs:optimization_step"]}
{"id": "C38", "title": "The optimizer's result is valid, within budget and no worse than its start", "statement": "optimize_tokenset returns a sorted token set that the tokenizer accepts, with at most ntokens tokens, that is losslessly decodable, of the requested processing and type, and whose total_tokens on the data is at most that of the starting set; the returned statistics are those of that set on that data; every intermediate saved set is valid too.", "quantifier": "all data, all admissible ntokens, all token types, all tie orders and clock readings", "why_tests_cant": "End-to-end claim over all runs.", "anchors": ["src/optimize.rs:optimize_tokenset", "src/optimize.rs:optimize_tokenset_impl", "src/optimize.rs:save_tokens"]}
{"id": "C39", "title": "Optimizing to any size works", "statement": "optimize for a bits type succeeds for every requested size of at least the number of ext tokens (README: 'as high as tens of thousands').", "quantifier": "all ntokens >= n_ext", "why_tests_cant": "Large sizes only fail at run time: the requested number of byte tokens exceeds 256.", "anchors": ["src/optimize.rs:optimization_step", "src/optimize_bytes.rs:SimpleBytesOptimizer::optimize_bytes", "README.md"]}
{"id": "C40", "title": "Optimizing with increasing data returns a result", "statement": "optimize_with_increasing_data ends with the statistics of the token set on the full data, and only when the sample it was optimized on gives nearly the same number of bytes per token as the full data.", "quantifier": "all file sizes, minimum sizes, optimizer results", "why_tests_cant": "Depends on file size; needs data above 16 MiB to succeed at all.", "anchors": ["src/main.rs:optimize_with_increasing_data"]}
{"id": "C41", "title": "Predicted byte savings are realised", "statement": "If add_byte predicts a saving of d tokens, then tokenizing the same samples with the new token set needs at most total_tokens - d tokens.", "quantifier": "all accepted sets, all samples, every byte optimizer that keeps the long tokens", "why_tests_cant": "An inequality between an estimate and a minimum over all segmentations.", "anchors": ["src/optimize.rs:add_byte", "src/optimize.rs:count_tokens_in_bytes"]}
{"id": "C42", "title": "Predicted pair savings are realised", "statement": "If add_token_bpe adds the pair of two different tokens with count d, tokenizing the same samples with the new set needs at most total_tokens - d tokens; for a pair of equal tokens at least half of d, rounded up, is saved.", "quantifier": "all accepted sets, all samples", "why_tests_cant": "Overlapping occurrences (aaa) make the count an overestimate; needs all texts.", "anchors": ["src/optimize.rs:add_token_bpe"]}
{"id": "C43", "title": "Merging statistics is order-independent", "statement": "Merging the statistics of parts in any order and grouping gives the same result as tokenizing all parts into one statistics object.", "quantifier": "all lists of statistics of equal shape, all orders", "why_tests_cant": "All orders and groupings.", "anchors": ["src/stats2.rs:TokenStats::merge"]}
{"id": "C44", "title": "Character counting", "statement": "count_chars reports a total equal to the number of characters of the file and per-character counts that add up to it, however the file is broken into lines; the reported maximum is the largest character of the file.", "quantifier": "all valid UTF-8 files", "why_tests_cant": "All files.", "anchors": ["src/main.rs:count_chars"]}
{"id": "C45", "title": "Preloaded samples are valid pieces of the file", "statement": "PreloadedSampler::new with sample_size >= 4 and max_samples >= 1 on a non-empty valid UTF-8 file does not panic and gives between 1 and max_samples chunks of at most sample_size bytes, each a contiguous valid UTF-8 piece of the file, delivered unchanged; with max_samples = 0 (and a longer file) or an empty file it panics.", "quantifier": "all valid UTF-8 files, sample sizes >= 4, sample counts, read lengths >= 4", "why_tests_cant": "All positions of chunk borders relative to characters and paragraph ends.", "anchors": ["src/input/preloaded_sampler.rs:PreloadedSampler::new", "src/input/util.rs:extract_valid_utf8_slice"]}
{"id": "C46", "title": "Tokenizing a sampled file scans all of it", "statement": "If a FileSampler (max_samples = None) iterates without panic, its samples are non-empty and concatenate to the file; tokenize_file on it, sequential or parallel under any schedule and any short reads, terminates with scanned_bytes equal to the file length; likewise for a MemorySampler whose slices were valid UTF-8.", "quantifier": "all files, sample sizes, short reads, token sets, worker counts and schedules", "why_tests_cant": "Combines OS read lengths and thread schedules.", "anchors": ["src/batch_tokenize.rs:tokenize_file", "src/input/file_sampler.rs", "src/input/memory_sampler.rs"]}
{"id": "C47", "title": "The optimize command writes a valid result", "statement": "For data below 2^34 bytes without --min-data-size, every admissible size and either no input set or one the optimizer can work on, the optimize command ends successfully and writes a file named after the set whose set is accepted, lossless, sorted, within the budget, of the requested type and processing, with the statistics of that set on the (possibly processed) data.", "quantifier": "all data files, processed files, sizes, types, thread schedules, tie orders and clock readings", "why_tests_cant": "End-to-end claim over all files and schedules.", "anchors": ["src/main.rs:optimize", "src/main.rs:maybe_process_file", "src/main.rs:save_tokens", "src/optimize.rs:Optimizer::optimize"]}
{"id": "C48", "title": "Saved token sets can be used again", "statement": "A token set file written by the optimize or convert command can be given to the convert command and, as input tokens, to the optimize command; converting writes the same set under the same name with the statistics of the given data.", "quantifier": "all saved sets of every type, all data files", "why_tests_cant": "All saved sets and files.", "anchors": ["src/main.rs:load_save_tokens", "src/main.rs:read_token_set", "src/main.rs:optimize", "src/tokenset.rs:TokenSet::from_json"]}
{"id": "C49", "title": "The optimizer uses its whole budget", "statement": "Every successful run of the optimizer with ntokens, from scratch or from a valid set, returns a set of exactly ntokens tokens. The only exceptions are that there is nothing left to add: for type bytes every non-empty sample is already a single token; for type byteshuff all ext and byte tokens are there and no two tokens are adjacent in the tokenization of any sample.", "quantifier": "all data, types, admissible sizes, starting sets, thread schedules, tie orders, clock readings", "why_tests_cant": "It is a claim about where an unbounded search ends, for all data and all schedules.", "anchors": ["src/optimize.rs:optimize_tokenset", "src/optimize.rs:add_token", "src/optimize.rs:optimization_step"]}
{"id": "C50", "title": "Optimizing an optimized set changes nothing", "statement": "If the optimizer returned a set, then running it again on the same data with that set as the starting set, the same type and the same size returns the same set with the same statistics and writes no intermediate file, whatever the number of threads, the order of ties and the clock.", "quantifier": "all data, types, sizes, starting sets, pairs of runs", "why_tests_cant": "A claim about all pairs of nondeterministic runs.", "anchors": ["src/optimize.rs:optimize_tokenset", "src/optimize.rs:optimization_step", "src/optimize.rs:remove_add_token"]}
{"id": "C51", "title": "64-bit counters never overflow", "statement": "Tokenizing N bytes with a set whose sequences list at most K tokens scans exactly N bytes, counts at most K*N tokens in total and of each kind, and at most N sequences and pairs of each kind. So as long as K*(N+1) < 2^64, tokenizing with u64 arithmetic, whether it panics on overflow or wraps around, sequentially or in parallel in any schedule, gives exactly the exact counts.", "quantifier": "all token sets, all lists of samples, all thread schedules, both overflow modes", "why_tests_cant": "Overflow needs inputs far larger than any test, and the bound must hold in every intermediate state of every schedule.", "anchors": ["src/tokenizer2.rs:process_slice", "src/tokenizer2.rs:update_stats", "src/stats2.rs:merge", "src/batch_tokenize.rs:tokenize_file"]}
{"id": "C52", "title": "Saved files are JSON and are read back in any layout", "statement": "The file written for a token set is a JSON text (RFC 8259) of the value it is made from, whatever bytes the tokens contain; reading any JSON text of that value, with any white space and any escapes, gives the token set the value stands for; so a saved set of type bytes or byteshuff (or with a token for every byte) is read back from its file as it was, except for the paragraph flag (C17).", "quantifier": "all token sets with statistics below 2^64, all JSON texts of their values", "why_tests_cant": "Tokens are arbitrary byte strings, including quotes, backslashes, control characters and invalid UTF-8, and layouts are unbounded.", "anchors": ["src/main.rs:save_tokens", "src/main.rs:read_token_set", "src/tokenset.rs:to_json", "src/tokenset.rs:from_json", "src/stats2.rs:to_json"]}
{"id": "C53", "title": "An incomplete file is never read as a token set", "statement": "If writing the file of a token set stops at any point, so that only a proper beginning of its bytes is on disk, then reading it panics; it is never taken for a (different) token set.", "quantifier": "all token sets and statistics, all crash points (every proper prefix of the bytes)", "why_tests_cant": "It must hold at every crash point of every file.", "anchors": ["src/main.rs:save_tokens", "src/main.rs:load_save_tokens", "src/main.rs:read_token_set"]}
{"id": "C54", "title": "pretty.py does not change token sets", "statement": "pretty.py writes JSON text for the value it read (up to the text of floating point numbers), so the program reads the same token set from the rewritten file as from the original one; and running it twice is the same as running it once.", "quantifier": "all JSON values of bounded integers (all token set files), all line lengths that arise", "why_tests_cant": "The layout depends on the lengths of all parts of an unbounded nested value.", "anchors": ["pretty.py:serialize", "pretty.py:save_json", "src/main.rs:read_token_set"]}
{"id": "C55", "title": "Down-sampling takes about the requested number of bytes", "statement": "sample_from_file, asked for size bytes of a file (1 <= size <= file size <= 2^52), keeps less than size plus the length M of the longest paragraph, and at least size minus the share size/file_size of M + 1 bytes; if no paragraph is longer than one hundredth of the file, the result is within one percent.", "quantifier": "every file, every paragraph structure, every requested size; with the rounding of the f64 divisions that the code performs", "why_tests_cant": "The selection compares two floating-point quotients after every paragraph; only a proof about all files and all roundings bounds the drift.", "anchors": ["src/input/memory_sampler.rs:MemorySampler::sample_from_file"]}
{"id": "C56", "title": "Cutting text into chunks damages only the characters at the cuts", "statement": "The in-memory sampler always delivers valid UTF-8, one non-empty sample per slice; for UTF-8 text a sample differs from its slice only in the at most one character cut at its start (each of its up to three bytes becomes U+FFFD) and the at most one cut at its end (its bytes become one U+FFFD), so tokenizing scans at least the bytes of the data and at most eight more per cut.", "quantifier": "all byte strings, all UTF-8 texts, all chunk sizes, all token sets and thread schedules", "why_tests_cant": "Every text and every way the cuts fall into multi-byte characters.", "anchors": ["src/input/sample.rs:Sample::from_bytes", "src/input/memory_sampler.rs:MemoryIterator::next"]}
{"id": "C57", "title": "Killing a run leaves no file that is mistaken for a result", "statement": "If an optimize command (from nothing or from a token set it can work on) or a convert command is killed at any point of any run, each file is then as it was before, or cannot be loaded (a partly written file is a JSON error), or is the complete file of a valid token set: for optimize of the requested type, processing and size, for convert the set that was loaded. Saving is not atomic: there is always a point at which the old file is lost.", "quantifier": "every file system, every data file, every run and schedule, every point at which the process stops between or inside writes", "why_tests_cant": "Crash points, runs and file contents cannot be enumerated.", "anchors": ["src/main.rs:optimize", "src/main.rs:load_save_tokens", "src/main.rs:save_tokens", "src/optimize.rs:Optimizer::save", "src/main.rs:read_token_set"]}
{"id": "C58", "title": "Commands touch only the files they are meant to write", "statement": "process changes only its output file, count-chars no file, convert and optimize only files named tokens<n>_<processing>_<type>.json in the given directory; optimize with valid input writes only names with the requested type and processing and at most the requested number of tokens. This holds also if the command panics or is killed.", "quantifier": "every command line, every file system, every run, every outcome and stopping point", "why_tests_cant": "Quantifies over all file systems, inputs, outcomes and crash points.", "anchors": ["src/main.rs:main", "src/main.rs:process", "src/main.rs:load_save_tokens", "src/main.rs:save_tokens", "src/optimize.rs:Optimizer::save", "src/tokenset.rs:TokenSet::name"]}
{"id": "C59", "title": "The result of optimize is on disk and usable", "statement": "An optimize command without --min-data-size (for that see C40), with valid input, readable files below 2^34 bytes and a writable directory has an outcome and every outcome is a success; the last file written has the name of the result and holds a valid set of the requested type, processing and size; for types bytes and byteshuff, loading it gives that set (except for the paragraph flag), and convert on it rewrites it to a file with the same set, unless it panics in the file sampler (C25).", "quantifier": "every file system, data file, valid input set, requested size, run and schedule", "why_tests_cant": "Composition of optimizer, writer and reader over all inputs and schedules.", "anchors": ["src/main.rs:optimize", "src/main.rs:save_tokens", "src/main.rs:read_token_set", "src/main.rs:load_save_tokens"]}
{"id": "C60", "title": "process writes the processed text and leaves the data alone", "statement": "process on a UTF-8 data file, with another path as output, succeeds and writes exactly the documented rewriting of the text with CRLF replaced by LF and with a final newline; the data file is unchanged. On a file that is not UTF-8 it panics, having written the processed lines before the first bad one; without a data file it panics without creating the output. (With the data file itself as output, it succeeds and the data is lost.)", "quantifier": "every data file (text or not), every file system and output path", "why_tests_cant": "All texts, all positions of invalid bytes.", "anchors": ["src/main.rs:process", "src/processing.rs:process_file"]}
{"id": "C61", "title": "A loaded token set is what the file lists", "statement": "Whatever JSON value a file holds, a token set is loaded from it if and only if the value stands for that set: its tokens are exactly the listed ones (numbers of byte arrays modulo 256; ext tokens numbered in order of appearance), its type (including the legacy names), processing and paragraph flag are those named, its sequences are the built-in ones of the type for bytes without a token, then the listed ones; every sequence refers to existing tokens, so the set can be sorted and saved without a panic.", "quantifier": "every JSON value, including malformed and hand-edited token sets", "why_tests_cant": "All JSON values.", "anchors": ["src/tokenset.rs:TokenSet::from_json", "src/tokenset.rs:TokenSet::sort", "src/tokenset.rs:TokenSet::to_json"]}
{"id": "C62", "title": "The README's decoder recovers the text", "statement": "Decoding the processed text as the README describes (an end-of-word marker becomes a space if a word follows and is dropped otherwise, the capitalized marker capitalizes the next letter, the all-caps marker the letters up to the end of the word) gives back exactly the original text, for every text over characters whose capitals can be restored letter by letter (all of ASCII without the markers); for process_file the text with Unix line ends and a final newline.", "quantifier": "all texts over such characters, all tables of letters and case that are right for them", "why_tests_cant": "Words, spaces, punctuation, case and line ends combine without bound; a test decodes only the texts it lists.", "anchors": ["README.md: Processing", "src/processing.rs: process, process_file, add_word"]}
{"id": "C63", "title": "A word is written the same everywhere", "statement": "A word (a maximal run of letters) gives the same characters wherever it stands, whatever non-letters surround it; words separated by single spaces give the concatenation of what they give alone; a capitalized word and a word of capitals give a marker and then exactly what the word in small letters gives.", "quantifier": "all words and all texts around them, all tables of letters and case", "why_tests_cant": "It is about every context of every word.", "anchors": ["README.md: Processing, points 1-3", "src/processing.rs: process, add_word"]}
{"id": "C64", "title": "Random samples of a file", "statement": "With max_samples = Some(n) and a file longer than sample_size > 0, whatever random numbers are drawn and however short the reads are, FileSampler takes n non-empty pieces of the file, each starting at the random position, at most sample_size long, cut after the last blank line inside what was read, and never containing the last byte of the file; the pieces are delivered unchanged if all are valid UTF-8 (always for ASCII files), otherwise it panics; total_size is at least what is delivered. On a file not longer than sample_size it panics unless n = 0.", "quantifier": "all files, sample sizes, sample counts, random numbers and read lengths", "why_tests_cant": "Random positions and OS read lengths; a test sees one draw.", "anchors": ["src/input/file_sampler.rs:FileIterator::next", "src/input/file_sampler.rs:FileSampler::total_size", "src/input/util.rs:find_paragraph_end"]}
{"id": "C65", "title": "The optimizer's 64-bit arithmetic never overflows", "statement": "For data of fewer than 2^45 bytes, every round of the optimizer and every complete run of optimize_tokenset (from scratch for every token type and size, and from any pretrained set of a workable size) has exactly the same outcomes with u64/i64 arithmetic - in builds with and in builds without overflow checks - as with unbounded numbers; in particular, for admissible sizes it ends with a result and never with an overflow panic.", "quantifier": "all inputs below 2^45 bytes, token types, processings, sizes, hash-map iteration orders, histories of the cache and of the removal counters", "why_tests_cant": "Overflow would need inputs of terabytes or particular histories; no test can supply all of them.", "anchors": ["src/optimize.rs:optimization_step", "src/optimize.rs:add_token_bpe", "src/optimize_bytes.rs:HuffOptimizer", "src/optimize_bytes.rs:SimpleBytesOptimizer"]}
{"id": "C66", "title": "Optimizing is reproducible", "statement": "Two runs of optimize_tokenset on the same samples with the same size, type, processing and starting set (none, or any set the optimizer can work on) return the same token set with the same statistics, even if they differ in the number of threads, in the schedule, in whether the sequential or the parallel tokenizer is used and in the clock; the only thing assumed is that sort_unstable_by_key is a function of its input. Such runs exist for every admissible size.", "quantifier": "all data, sizes, types, numbers of threads, schedules, clocks, and all sorting functions", "why_tests_cant": "Schedules and clocks cannot be enumerated; a test compares a few runs on one machine.", "anchors": ["src/optimize.rs:optimize_tokenset", "src/optimize.rs:optimization_step", "src/batch_tokenize.rs:TokenizerCache"]}
{"id": "C67", "title": "The byteshuff byte optimizer takes the cheapest of its candidates", "statement": "HuffOptimizer::optimize_bytes returns, with the long tokens added, the set that optimize_bytes_tokenset makes for some number of ext tokens from 2 to 10, and no other number of ext tokens in that range gives a set that needs fewer output tokens for the bytes, each byte counted once more than it was seen. (The split inside is greedy: contrary to its comment, optimize_splits does not always find an optimal split.)", "quantifier": "all accepted token sets whose sequences spell bytes, all counts, all requested sizes of at least 3", "why_tests_cant": "It compares with all candidates for all counts.", "anchors": ["src/optimize_bytes.rs:HuffOptimizer::optimize_bytes", "src/optimize_bytes.rs:optimize_splits"]}
{"id": "C68", "title": "Exactly which files are token sets", "statement": "A file is accepted as a token set if and only if it is the UTF-8 encoding of a JSON text (RFC 8259) nested fewer than 128 deep whose value stands for a token set; then this set is returned. Of several members with the same key the last one counts, integers that do not fit into 64 bits are floating point numbers, and white space, escapes and member order make no difference. Every other file is an error. A JSON text has at most one such meaning.", "quantifier": "every byte string that a file can hold, and every token set", "why_tests_cant": "All byte strings: both that every JSON text is read with its value and that nothing else is read.", "anchors": ["src/main.rs:read_token_set", "src/tokenset.rs:TokenSet::from_json"]}
{"id": "C69", "title": "Every long token earns its place", "statement": "Let optimize_tokenset return a set of the size asked for. Take any one of its tokens of two or more bytes away (or let the byte optimizer choose again with one byte token less) and tokenize the data with what is left: the number of output tokens grows by at least half of the count of any pair of neighbouring tokens then seen whose text has no text after a blank line. And every token of two or more bytes is used in the output for the data, unless no two tokens are next to each other in any sample.", "quantifier": "all data, types, sizes, starting sets, schedules, orders of trial and runs; all tokens of the set returned and all pairs seen without it", "why_tests_cant": "It is a statement about the fixpoint of a search over all possible data; a test sees a few fixpoints.", "anchors": ["src/optimize.rs:optimization_step", "src/optimize.rs:remove_add_token", "src/optimize.rs:add_token", "src/optimize.rs:add_token_bpe"]}
{"id": "C70", "title": "The most frequent bytes have the tokens", "statement": "For the bits types, in the set that optimize_tokenset returns: a byte with a token of its own is left over as a single byte at least as often as a byte without one, when the data is tokenized with that set; and no set of the same type with at most as many byte tokens needs fewer output tokens for these single bytes.", "quantifier": "all data, bits types, sizes, starting sets, schedules and runs; all pairs of bytes; all sets of the family", "why_tests_cant": "It is a statement about the fixpoint of a search over all possible data and all competing sets.", "anchors": ["src/optimize.rs:optimization_step", "src/optimize_bytes.rs:SimpleBytesOptimizer"]}
{"id": "C71", "title": "The optimizer invents no tokens", "statement": "Every token of two or more bytes in the set that optimize_tokenset returns, and in every set it writes to a file on the way, is a substring of one of the samples of the data or a token of the set it was given. From scratch and without data there are no such tokens.", "quantifier": "all data, types, sizes, starting sets, schedules, clocks and runs; all sets returned or written", "why_tests_cant": "All data and all runs; an invariant of the whole search.", "anchors": ["src/optimize.rs:optimize_tokenset_impl", "src/optimize.rs:add_token_bpe", "src/optimize.rs:save_tokens"]}
{"id": "C72", "title": "Cutting the data into samples costs little", "statement": "The total number of tokens that tokenize_file reports for data cut into samples is at least that for the uncut data, and at most m*k larger for each cut, where m is the length of the longest token or sequence string and k the largest number of tokens any single byte needs. So two ways of cutting the same data (chunk sizes, short reads) give totals that differ by at most that much per cut.", "quantifier": "all token sets the tokenizer accepts, all data, all ways of cutting it", "why_tests_cant": "All data and all cuttings; a test compares a few chunk sizes.", "anchors": ["src/batch_tokenize.rs:tokenize_file", "src/tokenizer2.rs:process_slice", "src/input/memory_sampler.rs", "src/input/file_sampler.rs"]}
{"id": "C73", "title": "Limits of the compression", "statement": "total_tokens is at most k times scanned_bytes (k = 8, 4, 2, 1 for bits1, bits2, bits4, bytes) and scanned_bytes is at most m times total_tokens, where m is the length of the longest token: the reported bytes per token lies between 1/k and m.", "quantifier": "all token sets the program makes, all data and all ways of cutting it", "why_tests_cant": "All data; a worst case bound.", "anchors": ["src/tokenizer2.rs:process_slice", "src/stats2.rs:bytes_per_token"]}
{"id": "C74", "title": "The whole pipeline loses nothing", "statement": "The counts that tokenize_file reports are the counts of a list of tokens from which the data can be recovered by a decoder that depends on the token set only. For a text that is processed to a file, cut by the file sampler (or by the memory sampler without cutting characters) and tokenized, on any number of threads, with any set the program makes, the tokens decode through that decoder, UTF-8 and the README's decoder to the original text with Unix line ends and a final newline. For ASCII text without markers no stage fails, whatever the chunk size and however short the reads.", "quantifier": "all texts over a class of characters whose capitals can be restored (ASCII is one), all token sets the program makes, all chunk sizes, read lengths, thread counts and schedules", "why_tests_cant": "It composes all stages over all texts, all sets and all ways to cut and schedule.", "anchors": ["src/processing.rs:process_file", "src/input/file_sampler.rs", "src/input/memory_sampler.rs", "src/batch_tokenize.rs:tokenize_file", "README.md"]}
{"id": "C75", "title": "The lines the optimizer prints tell what was exchanged", "statement": "Different tokens are printed differently; the line printed when the token set changes lists exactly the removed tokens and the added tokens, each once, sorted; it does not depend on the order in which hash sets iterate; and two changes that print the same line removed and added the same tokens.", "quantifier": "all pairs of token sets, all tokens (any bytes), all iteration orders", "why_tests_cant": "Injectivity over all byte strings and independence of all hash iteration orders.", "anchors": ["src/optimize.rs:show_tokenset_diff", "src/tokenset.rs:show_bytes", "src/tokenset.rs:Display for Token"]}
{"id": "C76", "title": "The count of a pair is the count of its text", "statement": "In the statistics of any tokenization, two pairs of tokens that were seen next to each other and whose texts together are the same text are the same pair. So pair_counts never splits the occurrences of one candidate string over several entries, although the string may be cut into two tokens in several ways.", "quantifier": "all token sets the tokenizer accepts, all data, all pairs of pairs", "why_tests_cant": "It rests on the tie-breaking of the tokenizer for every context in which a text can occur; a test sees only some contexts.", "anchors": ["src/tokenizer2.rs:process_slice", "src/tokenizer2.rs:update_stats", "src/optimize.rs:add_token_bpe"]}
{"id": "C77", "title": "Files are overwritten only by better sets", "statement": "The sets that the optimizer writes to files on the way get better: a later one has no fewer tokens than an earlier one; if it has the same file name (so overwrites the file) it needs strictly fewer output tokens for the data; except for type byteshuff it never needs more. The set returned is at least as good in each of these ways. This holds at any moment of any run.", "quantifier": "all data, types, sizes, starting sets, schedules, orders of trial, clock readings, finished and unfinished runs", "why_tests_cant": "Which sets are written depends on the clock and on the whole history of the run.", "anchors": ["src/optimize.rs:optimize_tokenset_impl", "src/optimize.rs:save_tokens", "src/optimize.rs:optimization_step"]}
{"id": "C78", "title": "Success means that the output is complete", "statement": "Whatever the device does (writing in pieces, being interrupted, running full or failing at any moment), a command that reports success has written its whole output. Holds for the files of optimize and convert: success if and only if the file is complete, otherwise it is a beginning of the contents. For process (and for the temporary file that optimize and convert make of the data): the output is always a beginning of the processed text, and after a panic something is missing; but after a success up to 8192 bytes at the end may be missing.", "quantifier": "all inputs and all behaviours of the device: sizes of partial writes, interruptions, moment of failure", "why_tests_cant": "Device errors at each possible write cannot be provoked by unit tests, and which of them is reported depends on the fill level of a buffer, hence on the lengths of all lines.", "anchors": ["src/processing.rs:process_file", "src/main.rs:process", "src/main.rs:maybe_process_file", "src/main.rs:save_tokens", "src/optimize.rs:save_tokens"]}
{"id": "C79", "title": "First-generation tokenizer: cheapest segmentation, right counts", "statement": "(Old modules tokens.rs, tokenizer.rs, stats.rs, which are in the repository but not compiled into the program.) For every set made with TokenSet::new, add_token (of non-empty strings) and remove_token, and for every text, Tokenizer::new and process_slice do not panic, and the token, literal and pair counts and the number of bytes added to the statistics are those of one way to write the text with tokens (cost 1) and literals (literal_cost), and no way is cheaper; among the cheapest ways it is the one whose last piece is longest, then the one before, and so on, so that there is only one; cost() is that cost. With an empty token string Tokenizer::new panics. Pair counts need at most 65536 tokens.", "quantifier": "all literal encodings, all sequences of additions and removals, all texts, with and without pair statistics", "why_tests_cant": "Optimality is over all segmentations of arbitrary texts, and the chain of suffix links depends on the whole set.", "anchors": ["src/tokens.rs:TokenSet::new", "src/tokens.rs:add_token", "src/tokens.rs:remove_token", "src/tokens.rs:generate_suffixes", "src/tokenizer.rs:create_suffix_states", "src/tokenizer.rs:process_slice", "src/tokenizer.rs:update_stats", "src/stats.rs:TokenStats"]}
{"id": "C80", "title": "First-generation tokenizer: threads do not change the result", "statement": "(Old modules, see C79.) tokenize_file returns the same statistics for every number of threads, every way in which the threads take the samples and every order in which their results arrive: those of one worker that takes all samples in order. They are the counts of a cheapest way to write each sample.", "quantifier": "all sets made with the API, all lists of non-empty samples, all thread counts, distributions and arrival orders", "why_tests_cant": "The distribution of samples over threads is decided by the scheduler.", "anchors": ["src/tokenizer.rs:tokenize_file", "src/tokenizer.rs:worker", "src/stats.rs:add"]}
{"id": "C81", "title": "A word costs one token", "statement": "The README's promise for the processing stage: if the token set has a token for the small form of every word of a text (with its end marker), for the two case markers and for the bytes outside the words, then the processed text is tokenized with at most one token for each word, one more for each capitalized or all-capitals word, and one for each byte outside the words, where single spaces between words count nothing. In particular n words separated by single spaces, each of which has its token, need at most n tokens.", "quantifier": "all texts, character tables and token sets with these tokens (whatever other tokens they have)", "why_tests_cant": "It is about all texts and all token sets, and needs the optimality of the tokenizer as well as the exact placing of markers.", "anchors": ["README.md", "src/processing.rs:process", "src/tokenizer2.rs:process_slice"]}
{"id": "C82", "title": "The command line means what it says", "statement": "The program accepts a command line exactly if it names one of the four subcommands and gives each required option of it once, optional ones at most once, with well-formed values, in any order and any of the usual spellings (--data file, --data=file, -d file, -dfile, -d=file). Then the command executed is the one named and every value goes to the use its option names; all other lines are refused and write nothing. The order and the spelling of the options change nothing, and a line has one meaning at most.", "quantifier": "all lists of arguments", "why_tests_cant": "There are infinitely many command lines; that options are neither confused nor silently dropped must hold for every order, spelling and value (also values that contain = or begin with -).", "anchors": ["src/main.rs:Args", "src/main.rs:Command", "src/main.rs:main", "src/processing.rs:Processing", "src/tokenset.rs:TokenType", "README.md"]}
{"id": "C83", "title": "A failing read is never taken for the end of the data", "statement": "However the system delivers a file (in pieces of any size, cut anywhere), and wherever a read fails, the program works on the whole file or does not succeed. Lines arrive whole and in order; if a read fails, a beginning of them. process: a success means all was read; what it leaves is always a beginning of the processed text. count-chars, sampling a file, loading a file into memory and reading a token set give the result for the whole file or a panic. The file sampler yields samples that make up the whole file, or panics.", "quantifier": "all files, all ways to cut the file into reads (including buffer boundaries of BufReader), all points of failure, all states of the output device", "why_tests_cant": "Sizes of reads and points of failure are chosen by the operating system; tests see one schedule, usually without failures.", "anchors": ["src/processing.rs:process_file", "src/main.rs:count_chars", "src/main.rs:read_token_set", "src/input/memory_sampler.rs:from_file", "src/input/memory_sampler.rs:sample_from_file", "src/input/file_sampler.rs:FileIterator"]}
{"id": "C84", "title": "convert and optimize work on the whole processed text, or fail", "statement": "If convert or optimize process the data themselves (into a temporary file), the result they report is one for the whole processed text; if the temporary file cannot be written completely, the command fails.", "quantifier": "all data files, token sets, options, and all behaviours of the device that holds the temporary file (pieces of any size, failure at any write)", "why_tests_cant": "When and where a device fails is not under the control of a test, and the wrong result looks like a right one.", "anchors": ["src/main.rs:maybe_process_file", "src/processing.rs:process_file", "src/main.rs:load_save_tokens", "src/main.rs:optimize"]}
{"id": "C85", "title": "The commands on failing devices: a reported success is one, and nothing half-done is readable", "statement": "Whatever portions the system delivers and takes, and wherever a read or write fails: a command that does not process the data itself and reports success has written the same files with the same contents as on devices that do not fail; with own processing it has done so for the processed text without at most its last 8192 bytes (see C78, C84). However convert or optimize ends, or if it is killed, every file it was writing is as before, or reading it as a token set is an error, or it is the complete file of a valid set (optimize: of the requested type, processing and size; convert: the set that was loaded). No other file is touched.", "quantifier": "all commands, arguments, files, portions of reads and writes, moments and places of failures, kill points, schedules", "why_tests_cant": "The number of places at which a read or write can fail grows with the data; tests cannot make the system fail at each of them.", "anchors": ["src/main.rs:main", "src/main.rs:maybe_process_file", "src/main.rs:load_save_tokens", "src/main.rs:optimize", "src/main.rs:optimize_with_increasing_data", "src/optimize.rs:optimize_tokenset_impl", "src/input/file_sampler.rs:FileSampler", "src/input/memory_sampler.rs:MemorySampler"]}
{"id": "C86", "title": "The character tokenizer reports one cheapest cut of every sample", "statement": "For every set of the character-based module made with its methods and every text, process_slice and tokenize report the statistics (total, literals, adjacent pairs) of one way of cutting each sample into tokens and single characters, and no way of cutting it takes fewer tokens. The price of a character without an encoding is the one the code uses: 0 below U+0100, 32 otherwise.", "quantifier": "all token sets made by new/add_char_token/add_encoding/add_string in any order (encodings of less than 256 tokens), all texts, all numbers of samples", "why_tests_cant": "The number of cuts is exponential in the length of the text; optimality over all of them for all sets cannot be tested.", "anchors": ["src/chars/tokenizer.rs:process_slice", "src/chars/tokenizer.rs:tokenize", "src/chars/tokens.rs:TokenSet", "src/chars/token_stats.rs:TokenStats"]}
{"id": "C87", "title": "The character tokenizer accepts exactly UTF-8", "statement": "process_slice of the character-based module returns for exactly the byte strings that are well-formed UTF-8; for every other one its assertion fails. It never fails in another way.", "quantifier": "all token sets made with the methods, all byte strings", "why_tests_cant": "All byte strings and all token sets.", "anchors": ["src/chars/tokenizer.rs:process_slice"]}
{"id": "C88", "title": "Codes of byteshuff are short for frequent bytes", "statement": "In the byte set chosen by the byteshuff optimizer, a byte that needs k+2 output tokens has at most the share (3/4)^k of the (smoothed) byte counts (k+1 instead of k+2 with 12 tokens or more); so no byte needs more than 156 tokens while the bytes can be counted in 64 bits, and the whole is within 2 tokens per byte plus 2.41 times the entropy of the bytes.", "quantifier": "all statistics (byte counts), all numbers of tokens from 3", "why_tests_cant": "Worst cases are exponential (Fibonacci-like) counts, which texts of testable size do not have.", "anchors": ["src/optimize_bytes.rs:HuffOptimizer", "src/optimize_bytes.rs:optimize_splits", "src/optimize_bytes.rs:optimize_ext_encoding"]}
{"id": "C89", "title": "Texts written with a character-based set can be read back", "statement": "In the token set that optimize_chars_tokens makes, exactly the characters of the samples have an encoding, each its own: a token for the character, or a token with a text followed by ext tokens. Every cut of a text of such characters can be written with tokens of the set, in as many as the statistics count, and the text (and the cut) can be recovered from the tokens.", "quantifier": "all samples (less than 2^64 characters), all numbers of tokens up to 65536, all iteration orders of the map of pairs, all texts of the characters of the samples", "why_tests_cant": "All texts and all sets; ambiguity of a code is a property of all pairs of token sequences.", "anchors": ["src/chars/optimizer.rs:optimize_chars_tokens", "src/chars/optimizer.rs:optimize_chars", "src/chars/optimizer.rs:optimize_ext_encoding", "src/chars/tokens.rs:add_encoding"]}
{"id": "C90", "title": "The character optimizer takes the best number of ext tokens, with short codes", "statement": "count_chars gives the characters of the samples in order with their numbers. optimize_chars_by_ext returns, among the sets for 2 to 8 ext tokens (fewer than the tokens), one with which the counted characters take the fewest tokens; a character that takes k+2 tokens has at most the share (3/4)^k of the text, so none takes more than 156 while the characters can be counted in 64 bits. With fewer than 3 tokens the optimizer panics.", "quantifier": "all samples, all numbers of tokens", "why_tests_cant": "All counts; the worst case of the code lengths needs exponentially distributed counts.", "anchors": ["src/chars/optimizer.rs:count_chars", "src/chars/optimizer.rs:optimize_chars_by_ext", "src/chars/optimizer.rs:optimize_splits", "src/chars/optimizer.rs:optimize_ext_encoding"]}
{"id": "C91", "title": "The loop of the character optimizer: most frequent pairs, always fewer tokens, exact size", "statement": "optimize_chars_tokens ends with exactly the wanted number of tokens with different texts and the statistics of a cheapest cut of the samples, or it panics because no two neighbouring tokens are left; there is no other outcome. In every round the text of a most frequent pair of neighbours becomes a token, it was not one before, and the samples then take fewer tokens, by at least half the count of the pair. The run cannot panic if there are at least n-2 different characters, or at most n-8 and a sample of 2^n characters.", "quantifier": "all samples (less than 2^64 characters), all numbers of tokens from 3 to 65536, all iteration orders of the map of pairs", "why_tests_cant": "All samples and all orders in which a hash map is traversed.", "anchors": ["src/chars/optimizer.rs:optimize_chars_tokens", "src/chars/optimizer.rs:select_token_bpe", "src/chars/tokenizer.rs:tokenize"]}
{"id": "C92", "title": "First-generation optimizer: cached statistics are right", "statement": "(Old module optimizer.rs, in the repository but not compiled into the program.) Whatever sequence of get_stats and get_stats_with_pairs calls is made on the two caches, every answer is the statistics of a cheapest way to write each of the cache's samples with the given set. The code violates this: sets that differ in a token with the byte 0 share a key, and an answer without pairs may be numbered in the order of another set. Without the byte 0 in tokens and samples the cost is always right, answers with pairs are right, and answers without pairs are right up to the numbering.", "quantifier": "all samples, all numbers of threads and schedules of the tokenizer, all sequences of calls", "why_tests_cant": "A wrong answer needs two sets with one key in one history; all histories and all sets matter.", "anchors": ["src/optimizer.rs:TokenizerCache", "src/optimizer.rs:get_stats", "src/optimizer.rs:get_stats_with_pairs", "src/tokenizer.rs:tokenize_file"]}
{"id": "C93", "title": "First-generation optimizer: an exchange of tokens makes the samples cheaper", "statement": "(Old module optimizer.rs, in the repository but not compiled into the program.) remove_and_add_token ends. If it returns a set, then exactly one token that is not mandatory was exchanged for a text that is a most used one in the fast samples when the old token is out, and the samples cost strictly less; the tokens tried less often come first and every trial is counted; after 512 trials only tokens never tried before are tried. If it returns none, the trials of at least 512 tokens or of all could not help and every token was tried at least once. It panics only if without one token every fast sample is itself a token.", "quantifier": "all samples (mid ones less than 2^32 bytes), all sets, all earlier calls, all earlier attempts, all orders of the hash map and of equal keys", "why_tests_cant": "All samples and all orders of a hash map and an unstable sort.", "anchors": ["src/optimizer.rs:remove_and_add_token", "src/optimizer.rs:add_token"]}
{"id": "C94", "title": "First-generation optimizer: the most valuable texts are added", "statement": "(Old module optimizer.rs, in the repository but not compiled into the program.) add_tokens(n) does not panic; it adds at most n tokens, all new, non-empty and parts of samples; no literal (worth its count times literal_cost - 1) and no pair of neighbours (worth its count) that is left out is worth more than one that was added; fewer than n only if there are no others; none only if n = 0 or every sample is a token.", "quantifier": "all samples, all sets of at most 65536 tokens, all n, all orders", "why_tests_cant": "All samples and orders.", "anchors": ["src/optimizer.rs:add_tokens"]}
{"id": "C95", "title": "First-generation optimizer: optimize_bpe reaches the size and never gets worse", "statement": "(Old module optimizer.rs, in the repository but not compiled into the program.) Every run of optimize_bpe that returns gives a set with the wanted number of tokens (or as many as before, if more), the same mandatory tokens, made by adding parts of samples and then by exchanges that each make the samples cheaper, until exchanges are given up after every token was tried; the statistics returned have the cost of that set, at most that of the first set. Otherwise it panics (nothing can be added) or, exactly if every sample becomes a token too early, never ends.", "quantifier": "all samples, sets, sizes up to 65536, blocks above 0, all orders", "why_tests_cant": "All samples and all orders; the endless loop needs special samples.", "anchors": ["src/optimizer.rs:optimize_bpe", "src/optimizer.rs:add_tokens_bpe", "src/optimizer.rs:remove_and_add_token"]}
{"id": "C96", "title": "First-generation optimizer: the most used bytes get tokens", "statement": "(Old module optimizer.rs, in the repository but not compiled into the program.) optimize_byte_tokens exchanges tokens of one byte for as many others and nothing else, so that no byte without a token is used more often than one with a token; it tells whether anything changed, and the slow samples do not cost more. With mandatory tokens of one byte (hex digits) it panics as soon as a byte would have to be exchanged.", "quantifier": "all slow samples, all sets", "why_tests_cant": "All samples and sets.", "anchors": ["src/optimizer.rs:optimize_byte_tokens"]}
{"id": "C97", "title": "First-generation optimizer: every saved set is better than the one before", "statement": "(Old module optimizer.rs, in the repository but not compiled into the program.) Every set that optimize_token_set saves has the wanted number of tokens and its right statistics on the slow samples; none costs more than one saved before, nor than the set at the start. If the run ends normally, the last saved set costs no more than one for which exchanges were given up. It can end in another way only by the assertion at the end (an exchange of bytes in vain) or because nothing can be added.", "quantifier": "all samples, sets, sizes, blocks, all clock readings and orders", "why_tests_cant": "All runs, clock readings and orders.", "anchors": ["src/optimizer.rs:optimize_token_set", "src/optimizer.rs:save_token_set"]}
{"id": "C98", "title": "First-generation optimizer: optimize_token_set ends", "statement": "(Old module optimizer.rs, in the repository but not compiled into the program.) optimize_token_set ends normally. The code violates this: the final assertion fails when exchanged bytes give the same cost, and when 600 seconds pass in each round, two sets can be exchanged for each other for ever. If the 600 seconds never pass, every run ends within a number of rounds given by the size of the samples.", "quantifier": "all samples, sets, sizes, all clock readings and orders", "why_tests_cant": "Termination over all clock readings; the loop needs samplers that disagree.", "anchors": ["src/optimizer.rs:optimize_token_set"]}
{"id": "C99", "title": "First-generation optimizer: block sizes and the set to start with", "statement": "(Old module optimizer.rs, in the repository but not compiled into the program.) For n >= 2 tokens the block size is the largest of n/2, n/4, ... whose square is below n, and not 0; for n = 0 its computation never ends. The set to start with is from the file for the first of n, n/2, n/4, ... that exists, down to the first number that is at most 2.", "quantifier": "all numbers of tokens, all sets of existing files", "why_tests_cant": "All numbers.", "anchors": ["src/optimizer.rs:optimize_all", "src/optimizer.rs:load_prev_token_set"]}
{"id": "C100", "title": "First-generation token sets: saving and loading", "statement": "(Old module tokens.rs.) from_json of what to_json wrote gives a set with the same tokens, mandatory tokens and literals, so that all texts cost the same. The code violates this for Dist2 and Dist4, which are loaded as Dist8. The file says: the processing, a list with one element for every reserved token and every token, the statistics under their names, the numbers of literals exactly if literals are a distribution, and the number of bits exactly if they are written in bits.", "quantifier": "all sets made with the methods of TokenSet, all statistics", "why_tests_cant": "All sets.", "anchors": ["src/tokens.rs:to_json", "src/tokens.rs:from_json", "src/stats.rs:to_json"]}
{"id": "C101", "title": "First-generation optimizer: what optimize_all leaves on disk", "statement": "(Old module optimizer.rs, in the repository but not compiled into the program.) optimize_all changes only the files for n, 2n, 4n, ... up to the maximum (below 1024 if raw). A changed file holds a set with exactly the number of tokens in its name, with right statistics, that costs no more than the one there before or, if there was none, than the one with half as many tokens. If it ends normally, all of these files were written. With n = 0 it never ends and writes nothing.", "quantifier": "all samples, all existing files written by it, all n, maxima up to 65536, all runs", "why_tests_cant": "All histories of runs and all files.", "anchors": ["src/optimizer.rs:optimize_all", "src/optimizer.rs:optimize_token_set", "src/optimizer.rs:load_prev_token_set"]}
{"id": "C102", "title": "First-generation optimizer: _add_and_remove_token exchanges one token and pays off", "statement": "(Old module optimizer.rs, nothing calls this function.) _add_and_remove_token adds a text of the highest value as a token. If it returns a set, then this set is the old one with exactly one token, not mandatory, exchanged for the new one, and the samples cost strictly less with it. If it returns none, every token that may be removed was tried in vain or is too important on the fast samples. If there is no sample it panics (a division by zero).", "quantifier": "all samples, all sets, all histories of the caches, all orders of equal tokens", "why_tests_cant": "All sets, samples and orders of the unstable sort.", "anchors": ["src/optimizer.rs:_add_and_remove_token"]}
{"id": "C103", "title": "The file of the character-based optimizer describes its result completely", "statement": "(Modules in chars/, in the repository but not compiled into the program.) A run of the character-based optimizer that ends normally writes JSON text that lists all tokens in order and the encodings of exactly the characters that need more than one token, with the statistics. Nothing is lost: if two runs write the same file, they have the same tokens and the same encodings of all characters, so a text written with the tokens can be read back with the file alone.", "quantifier": "all samples below 2^56 characters, all numbers of tokens up to 65536, all orders of the maps, all pairs of runs", "why_tests_cant": "A statement about all pairs of runs and all texts; tests compare single files.", "anchors": ["src/chars/tokens.rs:tokens_to_json", "src/chars/tokens.rs:encodings_to_json", "src/chars/token_stats.rs:to_json", "src/chars/optimizer.rs:optimize_chars_tokens"]}
{"id": "C104", "title": "Parallel tokenization holds only a few samples in memory and loses none on the way", "statement": "While a file is tokenized in parallel, at every moment at most nthreads + 5 samples have been read and not yet counted (5 waiting in the channel or in the hand of the main thread, one for each worker), so at most (nthreads + 5) chunks of bytes, however long the file is; the bound is reached. As long as no worker has failed, the bytes of the file are the bytes counted by a worker or in the total, the bytes in flight and the bytes not yet read. Reading a sample only when there is room gives the same results as C07.", "quantifier": "all schedules, numbers of threads, token sets, samples and file lengths, all moments of a run", "why_tests_cant": "Schedules and moments of a run are unbounded in number; a test sees one peak.", "anchors": ["src/batch_tokenize.rs:tokenize_file", "src/batch_tokenize.rs:worker", "src/input/file_sampler.rs:FileIterator::next"]}
{"id": "C105", "title": "A sampler that fails in the middle ends the parallel run with a panic, never with a hang or with statistics", "statement": "If reading the data fails in the middle (a chunk that is not UTF-8, a failing read), parallel tokenization of non-empty samples always ends: the main thread panics, all workers have ended, and no statistics are returned. For a file: it returns statistics if every chunk is valid text, and panics otherwise.", "quantifier": "all schedules, numbers of threads, token sets, files, chunk sizes and lengths of reads", "why_tests_cant": "The moment of the failure and the schedule are arbitrary; absence of a deadlock is a statement about all of them.", "anchors": ["src/batch_tokenize.rs:tokenize_file", "src/batch_tokenize.rs:worker", "src/input/file_sampler.rs:FileIterator::next", "src/input/sample.rs:Sample::from_vec"]}
{"id": "C106", "title": "The work of tokenizing a text is linear in its length", "statement": "Tokenizing a text goes exactly once over its bytes, looks exactly once at each occurrence of a token or sequence in it, goes back over it in at most one round for each byte and looks once at each token and sequence. So for tokens and sequences of at most m bytes there are at most m + 2 rounds for each byte, and one for each token and sequence; over all samples of the data the same. The automaton has exactly one state for each prefix of a token or sequence.", "quantifier": "all accepted token sets, all texts, all lists of samples", "why_tests_cant": "A worst case over all sets and texts; measurements show some inputs.", "anchors": ["src/tokenizer2.rs:process_slice", "src/tokenizer2.rs:update_stats", "src/tokenizer2.rs:create_suffix_states", "src/batch_tokenize.rs:tokenize_file_sync"]}
{"id": "C107", "title": "The data is read only as often as needed", "statement": "The tokenizer cache reads the data exactly once for each new token set (new up to order) that get_stats is asked for, and once for each get_stats_with_pairs. A set that was asked for before is answered without looking at the data. One round of the optimizer reads the data at most 2 L + 3 times, where L is the number of tokens of two or more bytes, and a whole optimization at most rounds * (2 * ntokens + 3) + 2 times. The number of rounds, and so of passes, is bounded in advance by the number of tokens to be added, the number of output tokens at the start and (for byteshuff) the size of the data.", "quantifier": "all histories of calls on one cache; all data, token sets, types, sizes, executions and outcomes of the optimizer", "why_tests_cant": "All histories and executions; a test counts the passes of one.", "anchors": ["src/batch_tokenize.rs:TokenizerCache::get_stats", "src/batch_tokenize.rs:TokenizerCache::get_stats_with_pairs", "src/optimize.rs:optimization_step", "src/optimize.rs:remove_add_token", "src/optimize.rs:optimize_tokenset_impl", "src/optimize.rs:optimize_tokenset"]}
{"id": "C108", "title": "The order in which a set lists its tokens does not matter", "statement": "Two token sets that list the same distinct tokens and the same sequences in different orders (with sequences renumbered accordingly) are accepted alike by the tokenizer and give the same statistics for the same data, whatever the number of threads: the same totals, and the same count for each token, sequence and pair of tokens, identified by content. With any cache, the tokenizer cache answers the two alike and is left in the same state. Started from one or the other, the optimizer has exactly the same possible outcomes and writes the same files on the way. Nor does the order in an input file matter: optimizing from two files that list the same set in different orders has exactly the same outcomes and writes exactly the same files.", "quantifier": "all pairs of token sets that are equal up to order, all data, thread counts, schedules, caches, types, sizes and executions, files and commands", "why_tests_cant": "All orders of all sets and all data; a test compares two orders of one set.", "anchors": ["src/tokenset.rs:TokenSet::sort", "src/tokenizer2.rs:FragmentTokenizer::process_slice", "src/batch_tokenize.rs:TokenizerCache::get_stats", "src/batch_tokenize.rs:TokenizerCache::get_stats_with_pairs", "src/optimize.rs:optimize_tokenset"]}
{"id": "C109", "title": "How large a processed text can become", "statement": "Processing a text makes it larger by at most two bytes for each word (plus what lowercase letters take more than capitals). For ASCII text, and wherever lowercase letters take as many bytes as capitals, the result is never shorter than the text and never longer than twice the text plus one byte; this bound is reached for every odd length. The file written by process_file is at most twice as large as the input plus two bytes, and at least as large as the input without the carriage returns of Windows line ends. The process command succeeds and leaves a file within these bounds.", "quantifier": "all texts, all files, all character tables", "why_tests_cant": "A bound for texts of every length and content.", "anchors": ["src/processing.rs:process", "src/processing.rs:add_word", "src/processing.rs:process_file"]}
{"id": "C110", "title": "A local change of the data changes the token count by little", "statement": "If a part of one sample is replaced by another text, the number of output tokens changes by at most what it takes to write the new text and the bytes of two tokens one by one; it does not depend on the size or content of the rest of the data. Adding bytes at the end of a text costs at most what it takes to write them one by one and saves at most what it takes to write the bytes of one token.", "quantifier": "all token sets the tokenizer accepts, all data, all edits", "why_tests_cant": "All edits of all data; the dynamic programming could in principle change its choices arbitrarily far away.", "anchors": ["src/tokenizer2.rs:FragmentTokenizer::process_slice", "src/batch_tokenize.rs:tokenize_file_sync"]}
{"id": "C111", "title": "The optimizer's console output can be replayed", "statement": "Starting with the tokens of the set the optimizer starts from and applying the exchanges it prints, one after the other, gives exactly the tokens of the set it returns; each printed exchange takes away only tokens that are there at this point and adds only tokens that are not. This can be read off the text itself: two optimizations that start with the same tokens and print the same text return the same tokens. Printing changes neither the outcomes nor the files.", "quantifier": "all data, token types, processings, sizes, starting sets, thread counts, clock readings and tie orders; all ways to print floating-point numbers and paths in one line", "why_tests_cant": "The output is spread over four functions and many rounds; a missing or doubled line in one rare branch (byte exchange, removal, growth) breaks the replay only for data that reach it.", "anchors": ["src/optimize.rs:optimize_tokenset", "src/optimize.rs:optimize_tokenset_impl", "src/optimize.rs:optimization_step", "src/optimize.rs:remove_add_token", "src/optimize.rs:show_tokenset_diff"]}
{"id": "C112", "title": "Printed rates belong to the printed sets and do not go down", "statement": "The first line shows the size and the rate of the starting set. Every printed exchange is followed at once by the rate of the set it leads to. Every exchange adds a token or lowers the number of output tokens and never exceeds the size asked for; once this size is reached every exchange lowers the number of output tokens and the printed rates, as rounded floating-point numbers, never go down. The last printed rate is the rate of the result.", "quantifier": "all data, token types, processings, sizes, starting sets, thread counts, clock readings and tie orders", "why_tests_cant": "The rates come from cached statistics computed in other rounds; all histories of the cache and all roundings of quotients matter.", "anchors": ["src/optimize.rs:optimize_tokenset_impl", "src/optimize.rs:remove_add_token", "src/stats2.rs:TokenStats::bytes_per_token"]}
{"id": "C113", "title": "Lines of removal attempts are complete and in order", "statement": "A line 'Removing: ...' is printed only when the set has the size asked for; it names distinct tokens of two or more bytes of this set, first those that were named least often before, and is followed by an exchange, or names all of them and ends the output. If the result has the size asked for, the output ends with such a line that names all its tokens of two or more bytes. The output consists of whole lines.", "quantifier": "all data, token types, processings, sizes, starting sets, thread counts, clock readings and tie orders", "why_tests_cant": "The order depends on counts kept over all earlier rounds.", "anchors": ["src/optimize.rs:remove_add_token", "src/optimize.rs:optimize_tokenset_impl"]}
{"id": "C114", "title": "The files announced on the console are the files written", "statement": "The lines 'Writing the token set to ...' printed by optimize and convert-tokens name, after a success, exactly the files that were written, in their order. This includes the intermediate sets saved by the optimizer. If the optimizer fails, at most one file more is announced than was written, the last. Printing changes no outcome.", "quantifier": "all data, token types, processings, sizes, starting sets, minimum sizes, thread counts and clock readings; successes and panics", "why_tests_cant": "Which intermediate sets are saved depends on the clock and the path of the optimization; a test sees one path.", "anchors": ["src/main.rs:save_tokens", "src/main.rs:load_save_tokens", "src/main.rs:optimize", "src/optimize.rs:save_tokens"]}
{"id": "C115", "title": "The progress printed with increasing data is truthful", "statement": "optimize with a minimum data size prints 'The difference is less than 0.5%. Stopping.' once, as the last line, right after the rate of the result on the full data, if it succeeds, and never if it fails. The sizes printed are those of the samples for the minimum size doubled again and again. Each rate '(bigger data)' is followed by a rate '(optimized)' for the same sample; if the set it started from has the size asked for, then the second rate is not lower, as printed, and the optimized set needs no more tokens.", "quantifier": "all files, minimum sizes, token types, processings, sizes, starting sets, thread counts, clock readings; successes and panics", "why_tests_cant": "The number of rounds depends on the file; files above 2^24 bytes are needed for a success.", "anchors": ["src/main.rs:optimize_with_increasing_data"]}
{"id": "C116", "title": "The order of the samples does not matter, nor does repeating all of them", "statement": "tokenize_file on the samples repeated k times, in any order, gives k times every count. optimize_tokenset on the same samples in another order has exactly the same possible results and intermediate files; if the unstable sort is a function, the same result. For all types but byteshuff, the same holds for the samples repeated k >= 1 times in any order, with all counts multiplied by k.", "quantifier": "all lists of samples and permutations of them, all k, token types, processings, sizes and starting sets, thread counts, schedules and clock readings", "why_tests_cant": "Permutations of the data and paths of the optimizer cannot be enumerated; a test tries one.", "anchors": ["src/batch_tokenize.rs:tokenize_file", "src/optimize.rs:optimize_tokenset", "src/optimize_bytes.rs:SimpleBytesOptimizer", "src/stats2.rs:merge"]}
{"id": "C117", "title": "Converting a token set again changes nothing; only the set in an input file matters", "statement": "convert on a file from which a token set is read, if it succeeds, writes exactly one file, named after the set; for types bytes and byteshuff (and sets with a token for every byte) the same tokens, type, processing and sequences of two tokens or more are read back from it. Two input files from which the same set is read (whatever their layout, statistics or other members) make convert and optimize behave in the same way. Converting the file that convert has written has the same outcomes and writes the same bytes as converting the original. Deviation: sequences of fewer than two tokens are dropped, and if one of them was needed for a byte, the new file cannot be converted.", "quantifier": "all contents of files, paths, data, thread counts and schedules", "why_tests_cant": "A test converts a few files; the set of readable JSON texts and of token sets is unbounded.", "anchors": ["src/main.rs:load_save_tokens", "src/main.rs:read_token_set", "src/tokenset.rs:from_json", "src/tokenset.rs:to_json"]}
{"id": "C118", "title": "What count-chars prints", "statement": "For every UTF-8 file, count-chars prints exactly: for each billion of characters in which a line ends, the number of characters up to the first such line end; the total number of characters; for each character below 256 that occurs, in increasing order, one line with the character in quotes and its number of occurrences; and the maximum character (character 0 if none is above 255). The text printed determines all these numbers. For a file that is not UTF-8, only progress for the lines before the first bad one is printed before the panic, and never a count.", "quantifier": "every text, every byte sequence that is not UTF-8, every iteration order of the hash map, every set of characters printed unescaped", "why_tests_cant": "The progress lines only appear for inputs above a billion characters, and that the output can be read back is a statement about all pairs of texts.", "anchors": ["src/main.rs:count_chars"]}
{"id": "C119", "title": "No token set compresses everything", "statement": "No token set of the built-in families with n tokens compresses everything: fewer than n^m different texts are tokenized to fewer than m tokens, so whenever n^m <= 256^L some text of L bytes takes at least m tokens. The output tokens spent on single bytes, each worth log2(n) bits, are never fewer than the entropy of these bytes. Compared with any uniquely decodable code of the bytes over k symbols, the byteshuff byte optimizer needs at most 2 tokens per byte plus log(k)/log(4/3) times as many tokens.", "quantifier": "all token sets of the families, all texts, all numbers of bytes; all uniquely decodable codes of bytes over any number of symbols", "why_tests_cant": "It is a statement about all texts of a length and about all possible codes.", "anchors": ["src/tokenizer2.rs:FragmentTokenizer::process_slice", "src/tokenset.rs:TokenSet", "src/optimize_bytes.rs:HuffOptimizer::optimize_bytes"]}
{"id": "C120", "title": "literal_dist_entropy of the first generation", "statement": "TokenSet::dist_entropy is the entropy per literal in bits of the literals counted: for sets with a distribution for literals, times the number of literals it is the sum of count*log2(total/count); it lies between 0 and 8, is 0 exactly if at most one byte occurs as a literal, and no uniquely decodable binary code for bytes takes fewer bits per literal. For other sets, and without literals, it is 0.", "quantifier": "all token sets and statistics of the first generation; all uniquely decodable binary codes", "why_tests_cant": "It is a statement about all counts and all codes.", "anchors": ["src/tokens.rs:TokenSet::dist_entropy", "src/tokens.rs:TokenSet::has_dist_fallback"]}
{"id": "C121", "title": "Tokens shown as text outside the program can be told apart", "statement": "In the modules outside the program, format_token and Display of a character-based token give different texts for different tokens. A character-based token set whose encodings list existing tokens is shown without panic, the text does not depend on the iteration order of the map of characters, and it determines the tokens in order, the characters that have an encoding, and the tokens of each encoding.", "quantifier": "all tokens; all pairs of character-based token sets; all iteration orders; all tables of printable characters", "why_tests_cant": "That two different sets never give the same text is a statement about all pairs of sets.", "anchors": ["src/chars/tokens.rs:Display for CharsTokenSet", "src/chars/tokens.rs:Display for CharsToken", "src/optimizer.rs:format_token"]}
{"id": "C122", "title": "Samples are not too small", "statement": "Although a sampler ends each sample after the last blank line of its chunk, any two neighbouring samples of a MemorySampler have together more bytes than the chunk size (for a FileSampler whose reads are full: at least as many), so data of n bytes is cut into at most 2*(n/chunk_size)+1 samples. Hence the total number of tokens that optimize reports for raw data below 2^34 bytes is at least that of the uncut data and exceeds it by at most 2*(n/2^20)*m*k, for larger raw data (and for convert-tokens) by at most 2*(n/2^24)*m*k, where m is the length of the longest token and k the number of tokens a byte may need.", "quantifier": "all data, chunk sizes and positions of blank lines, all token sets and results of the optimizer", "why_tests_cant": "it is about every arrangement of blank lines in the data; a test sees one file", "anchors": ["src/input/memory_sampler.rs: MemoryIterator::next", "src/input/file_sampler.rs: FileIterator::next", "src/input/util.rs: find_paragraph_end", "src/main.rs: optimize, load_save_tokens"]}
{"id": "C123", "title": "An interrupted optimization can be resumed", "statement": "If an optimize command for type bytes or byteshuff (from nothing or from a valid set) is killed at any moment, then any file it has changed and that can be read as a token set can be given to optimize as input tokens, for the same number of tokens or more: the resumed command ends, every outcome is a success, its result has no fewer tokens than the set it was resumed from and, for type bytes (for byteshuff: if that set has all tokens or all 258 short tokens), needs no more output tokens for the data. (For the bits types saved sets cannot be loaded, see C48.)", "quantifier": "every file system, data file, starting set, size, run, schedule and point at which the process is killed; every later size", "why_tests_cant": "a test kills the program at a few points of one run; this is about every point of every run, and every outcome of the second run", "anchors": ["src/main.rs: optimize, optimize_with_increasing_data, save_tokens, read_token_set", "src/optimize.rs: Optimizer::optimize, optimize_tokenset_impl", "src/tokenset.rs: to_json, from_json"]}
{"id": "C124", "title": "Processing beforehand changes nothing", "statement": "After a process command that succeeded (its output being neither the data nor the input token set), convert and optimize with that output as --processed-data have exactly the outcomes, and write exactly the bytes, that they have without it, for every processing, type, size and starting set; so does an optimization that is still at work. If the data is not UTF-8, optimize with processing and without processed data always fails and writes nothing; but then process fails too and leaves a file with which, given as processed data, optimize succeeds.", "quantifier": "every file system, data file, output path, token set, options, schedule and outcome", "why_tests_cant": "a test compares two runs on one input; this compares the sets of all outcomes, over all schedules, on all inputs", "anchors": ["src/main.rs: process, maybe_process_file, load_save_tokens, optimize", "src/processing.rs: process_file"]}
{"id": "C125", "title": "The commands are reproducible", "statement": "Let the unstable sort be a (any) function and every read of a file fill its buffer unless the file ends. Then two runs of convert on the same files write the same bytes to the same file, or both fail and write nothing; and if two runs of optimize on the same files succeed, the last file they write has the same name and the same bytes, so that only the sets saved on the way depend on the clock; for every number of threads, schedule, clock, option and starting set. Such runs exist and are runs of the commands. Without the assumption on reads it fails: the same file may be counted as one token or as two.", "quantifier": "every file system, option, starting set, thread count, schedule, clock and sort function", "why_tests_cant": "a test can repeat a run a few times on one machine; this compares all pairs of runs on all machines", "anchors": ["src/main.rs: load_save_tokens, optimize, optimize_with_increasing_data", "src/batch_tokenize.rs: tokenize_file", "src/optimize.rs: optimize_tokenset", "src/input/file_sampler.rs: FileIterator::next"]}
{"id": "C126", "title": "Several runs at the same time", "statement": "Any number of commands work at the same time on the same files, started at any moment, their system calls interleaved in any way. If none writes a file that another one writes or reads, then at every moment each is as if it were alone: it has an outcome that it has alone, its files are what it leaves alone at some moment, and, when it has done all its calls, all that it writes; files that nobody may write are as they were. In particular optimizations that differ in type or processing can write into the same directory at the same time. Every started run can go on, and every run can be started at any moment.", "quantifier": "every file system, every family of commands on any machines, every interleaving of their system calls, every moment", "why_tests_cant": "the interleavings of several programs cannot be enumerated, and a test observes few of them", "anchors": ["src/main.rs: main, load_save_tokens, optimize, process", "src/optimize.rs: save_tokens", "src/tokenset.rs: TokenSet::name"]}
{"id": "C127", "title": "Which sizes an optimization writes files for", "statement": "An optimize command that starts from the set in a file writes, at any moment, only files for sets of the same type and processing with at least as many tokens as that set has and at most as many as were asked for; so the files of smaller sets survive it, wherever it is killed. Between these it can write all: for type bytes (and byteshuff from scratch, or with all ext tokens and bytes there) some run writes a file for every size between that of the start and that of its result, so that results of earlier runs for these sizes are overwritten.", "quantifier": "every file system, data, processing, type, size, starting set and moment; for the second part, every such optimization has a run", "why_tests_cant": "files are written when a clock says so; a test sees one run at one speed", "anchors": ["src/optimize.rs: save_tokens, optimization_step, optimize_tokenset_impl", "src/main.rs: optimize, optimize_with_increasing_data", "src/tokenset.rs: TokenSet::name"]}
{"id": "C128", "title": "Several runs that write the same file", "statement": "Runs of the program at the same time that write the same file: if every run that writes it gives it the same contents, and no run writes what another one reads, then each run has an outcome that it has alone, at every moment the file is as before or consists of bytes of these contents (at their places, perhaps with zeros in between, never longer), and when all runs that write it are done it has exactly these contents; so any number of copies of process on a text can run at the same time. If the contents differ this is not so: two commands that succeed alone can both succeed at the same time and leave the shorter contents followed by the rest of the longer ones, and if these are files of token sets (for example of two converts of the same set) what is left cannot be read.", "quantifier": "every number of runs, every file system, machine and command, every interleaving of their starts and system calls, every division of the contents into writes, every moment", "why_tests_cant": "the order of system calls of several processes is up to the operating system; a test sees a few of the interleavings", "anchors": ["src/main.rs: process, load_save_tokens, save_tokens, main", "src/optimize.rs: save_tokens", "src/processing.rs: process_file"]}
{"id": "C129", "title": "Looking at the files of a run while it works", "statement": "Consider one run among any number of others that do not write its files nor what it reads, but may read its files and get in each other's way. At every moment it is as if it were alone: it has an outcome that it has alone, and its files are what it leaves alone at some moment. So at any moment each file of an optimization (that starts from nothing or from a set the optimizer can work on) is as it was before, or reading it is an error, or it is the complete file of a valid set of the requested type and processing, within the requested size. A convert that starts then on such a file fails or converts a complete set: the one that was there before, or one that the optimization has saved; and an optimization of type bytes or byteshuff that starts then from such a file starts from a set that the optimizer can work on, or fails to read it.", "quantifier": "every file system, every machine, every family of commands, every interleaving of their starts and system calls, every moment, every file that the optimization can write", "why_tests_cant": "the moment at which another program looks at a file, and how far the write has come, is up to the operating system", "anchors": ["src/main.rs: main, optimize, load_save_tokens, read_token_set", "src/optimize.rs: save_tokens, optimize_tokenset_impl", "src/tokenset.rs: TokenSet::from_json"]}
{"id": "C130", "title": "Comparing token sets", "statement": "If whatever a token or a sequence of one set stands for can be written with another set as at most as many tokens, then the other set never needs more output tokens, for any data. So a set with all tokens of another one (and sequences that are not longer, or tokens in their place) never needs more; and of two sets of the types bits1, bits2, bits4 and bytes with the same texts as tokens the one with shorter codes for single bytes never needs more. Taking away a token whose text can be written with c of the other tokens never helps and costs at most c - 1 output tokens for each time that the token was used (as counted in the statistics); if it is two tokens one after the other it costs at most its count; a token that is not used is worth nothing: without it all statistics stay the same. So in an optimized set of the size asked for no token of two or more bytes is used too rarely: no pair of neighbours (without a paragraph break inside) that is seen without it is more frequent than 2 (c - 1) times the number of its uses.", "quantifier": "every pair of token sets with these relations, all data, any numbers of threads, every token", "why_tests_cant": "the claim compares the optimal tokenizations of every text; a test sees a few texts", "anchors": ["src/tokenizer2.rs: FragmentTokenizer::new, process_slice", "src/batch_tokenize.rs: tokenize_file", "src/tokenset.rs: TokenSet::new_bits1, new_bits2, new_bits4, new_bytes, add_token, remove_token", "src/stats2.rs: TokenStats"]}
{"id": "C131", "title": "A run that is stopped is the beginning of a complete one", "statement": "What an optimize command has written at any moment is the beginning of what a complete execution of it writes, and every beginning of what a complete execution writes may be what it has written at some moment. So the files that are left if it is killed are files that are left by an execution that would have come to its end: it is never on a way that has no end (for a minimum size other than 0). The other commands write at most one file.", "quantifier": "every data file, every good start (nothing, or a set that the optimizer can work on), every minimum size but 0, every moment of every execution, all files", "why_tests_cant": "a test sees the executions that end, and a few moments of them; the claim is about all moments of all executions, also of those that have not ended", "anchors": ["src/main.rs: main, optimize, optimize_with_increasing_data", "src/optimize.rs: optimize_tokenset_impl, optimize_tokenset, save_tokens"]}
{"id": "C132", "title": "The counters agree with each other", "statement": "In the statistics of any tokenization: no token was written less often than the used sequences need it, the rest being the times it was written for its own text, and a token without text has no such rest; a token is followed by other tokens, and follows other tokens, at most as often as it was written for its own text, so the count of a pair is never more than the count of either token; total_tokens is the tokens written for themselves plus those in sequences; and the pair counts add up to all pieces but one per sample, give or take the sequences. Without sequences the pair counts add up to exactly total_tokens minus the number of samples with data.", "quantifier": "every token set with sequences in range, every list of samples, any number of threads and any schedule", "why_tests_cant": "a test compares counters for a few texts; the equations are about every set and every text", "anchors": ["src/stats2.rs: TokenStats", "src/tokenizer2.rs: process_slice, tokenize_file"]}
{"id": "C133", "title": "The saved file and the tokens are enough", "statement": "The bytes of a token set's file determine the set's type, processing, tokens and sequences. There is one decoder for all sets: given only the bytes of the file in which a set was saved and the tokens that are counted when data are tokenized with that set, on any number of threads, it makes the data. Likewise for the whole way from a text: the text is processed as the set requires, cut and tokenized, and one decoder, given the file and the tokens, makes the text (with Unix line ends and a final newline for caps-words). Every successful optimize command leaves such a file.", "quantifier": "every regular lossless token set, every file content that is JSON for it, every data and text of restorable characters, any cutting, number of threads and schedule", "why_tests_cant": "a test decodes a few texts with one set; here one decoder must work for every set and text, and two different sets must never have the same file", "anchors": ["src/tokenset.rs: to_json, from_json", "src/main.rs: read_token_set, save_tokens, maybe_process_file", "src/tokenizer2.rs: tokenize_file"]}
{"id": "C134", "title": "Converting the result of optimize reports the same numbers, and converting again changes nothing", "statement": "When optimize for bytes or byteshuff has counted the whole file at the end (with --min-size, or for data of at least 2^34 bytes, or text of at most 2^20 bytes), converting the file it wrote last, with the same data and any number of threads, succeeds and rewrites that file; every member read from it (statistics, tokens, sequences, type, processing) is as before, except that the paragraph flag is off; if it was off already, the file stays the same byte for byte. Converting a converted file again, with the same data, writes the same bytes: nothing changes any more.", "quantifier": "every data, machine, number of threads, schedule and clock, token budget, input set; reads fill their buffer unless the file ends", "why_tests_cant": "the optimizer reaches its final statistics through a cache, samples and a parallel tokenizer; that they equal those of a fresh run must hold for every history and schedule", "anchors": ["src/main.rs: optimize, optimize_with_increasing_data, load_save_tokens, save_tokens", "src/optimize.rs: optimize_tokenset, Optimizer::get_stats", "src/stats2.rs: to_json", "src/tokenset.rs: from_json, to_json"]}
{"id": "C135", "title": "The numbers in a saved file are right", "statement": "What is read from the file that a successful convert writes, and from the last file of a successful optimize, reports: under ntokens the number of tokens of the set in this file, which is also how many are listed; under initial_size the size of the data file; under scanned_bytes the number of bytes that were tokenized, which is all of the data (the processed data for capswords), cut into samples; under total_tokens the least number of tokens with which these samples can be written; under bytes_per_token the quotient of initial_size and total_tokens. (optimize without --min-size on less than 2^34 bytes first replaces what is not UTF-8 in a sample.)", "quantifier": "every data, token set or start, options, machine, number of threads, schedule, clock and length of the reads", "why_tests_cant": "the numbers come out of a cache, many rounds and a parallel tokenizer; being the minimum quantifies over every way of writing every sample", "anchors": ["src/main.rs: convert, optimize, load_save_tokens, save_tokens", "src/stats2.rs: TokenStats::to_json", "src/batch_tokenize.rs: tokenize_file", "src/optimize.rs: optimize_tokenset"]}
{"id": "C136", "title": "First-generation optimizer: names of the files", "statement": "(Old modules, in the repository but not compiled into the program.) Files have the same name exactly for the same number of tokens, processing (any text) and encoding of literals. A set that optimize_all saved is found by load_prev_token_set for the same three and changes nothing that is found for others, if the text for the directory is not empty and has no slash at its end; with a slash at its end the two paths differ in a doubled slash. The code violates this for the empty text: it writes to the current directory and looks in the root directory. With Dist8, the encoding it uses, no file has the name of a file of the present program; Bits1, Bits2 and Bits4 would share names with it.", "quantifier": "all numbers of tokens, texts for the processing, encodings, texts for the directory, states of the disk", "why_tests_cant": "All names and directories.", "anchors": ["src/optimizer.rs:optimize_all", "src/optimizer.rs:load_prev_token_set", "src/tokens.rs:Display for LiteralEncoding"]}
{"id": "C137", "title": "The reported compression is real", "statement": "There is one decoder for all runs. When optimize succeeds, or convert on a set that optimize has saved, the file written (last) reports a number of tokens under total_tokens; there are exactly that many tokens of the set in this file from which, together with the bytes of this file and nothing else, the decoder makes the data that was tokenized. (optimize without --min-size on less than 2^34 bytes: the data after what is not UTF-8 in a slice has been replaced; nothing is replaced in a text of at most 2^20 bytes.)", "quantifier": "every data, start, options, machine, number of threads, schedule, clock and length of the reads; one decoder for all of them", "why_tests_cant": "a decoder that works for every file and every data, and a count that comes out of a cache, many rounds and a parallel run", "anchors": ["src/main.rs: convert, optimize, load_save_tokens, save_tokens", "src/stats2.rs: TokenStats::to_json", "src/tokenizer2.rs: FragmentTokenizer", "src/tokenset.rs: to_json", "README.md"]}
{"id": "C138", "title": "A text comes back from the file of a run", "statement": "There is one decoder, made from the character tables alone, for all runs. When optimize succeeds on a file that holds a text (and --processed, if given for caps-words, names the file that process writes for it), its last file reports a number of tokens; there are exactly that many tokens of its set from which, with the bytes of this file and nothing else, the decoder makes the text: all of it for raw, the text with Unix line ends and a final newline for caps-words (for texts of characters whose capitals can be restored, as ASCII without the markers). The same for convert with a set that optimize can save. For optimize without --min-size on less than 2^34 bytes: if what is tokenized has at most 2^20 bytes or is ASCII.", "quantifier": "every text, start, options, machine, number of threads, schedule, clock and length of the reads; one decoder for all of them", "why_tests_cant": "a decoder that works for every text and every file, and a count that comes out of a cache, many rounds and a parallel run", "anchors": ["src/main.rs: convert, optimize, maybe_process_file", "src/processing.rs: process, process_file", "src/stats2.rs: TokenStats::to_json", "src/tokenset.rs: to_json, from_json", "README.md: processing"]}
