{
 "claims": [
  {
   "property": "C01",
   "status": "proved",
   "theorems": [
    "Tokens.Props.C01_tokenization_is_optimal"
   ],
   "note": ""
  },
  {
   "property": "C02",
   "status": "proved",
   "theorems": [
    "Tokens.Props.C02_statistics_of_one_segmentation"
   ],
   "note": ""
  },
  {
   "property": "C03",
   "status": "proved",
   "theorems": [
    "Tokens.Props.C03_new_succeeds_iff",
    "Tokens.Props.C03_processSlice_never_panics"
   ],
   "note": ""
  },
  {
   "property": "C04",
   "status": "proved",
   "theorems": [
    "Tokens.Props.C04_longest_last_piece",
    "Tokens.Props.C04_longest_last_unique"
   ],
   "note": ""
  },
  {
   "property": "C05",
   "status": "proved",
   "theorems": [
    "Tokens.Props.C05_accounting",
    "Tokens.Props.C05_any_threads"
   ],
   "note": ""
  },
  {
   "property": "C06",
   "status": "proved",
   "theorems": [
    "Tokens.Props.C06_adding_never_hurts",
    "Tokens.Props.C06_any_threads"
   ],
   "note": ""
  },
  {
   "property": "C07",
   "status": "proved",
   "theorems": [
    "Tokens.Props.C07_parallel_equals_sequential",
    "Tokens.Props.C07_tokenize_file"
   ],
   "note": ""
  },
  {
   "property": "C08",
   "status": "proved",
   "theorems": [
    "Tokens.Props.C08_every_run_is_finite",
    "Tokens.Props.C08_no_deadlock",
    "Tokens.Props.C08_every_maximal_run_returns"
   ],
   "note": ""
  },
  {
   "property": "C09",
   "status": "partial",
   "theorems": [
    "Tokens.Props.C09_failed_worker_no_result_partial",
    "Tokens.Props.C09_failed_worker_hangs"
   ],
   "note": "Violated by the code: C09_failed_worker_hangs proves that after a worker panic main never returns and never panics in any continuation. The partial theorem is the safety half that does hold."
  },
  {
   "property": "C10",
   "status": "proved",
   "theorems": [
    "Tokens.Props.C10_get_stats_transparent",
    "Tokens.Props.C10_get_stats_with_pairs_transparent",
    "Tokens.Props.C10_calls_return"
   ],
   "note": ""
  },
  {
   "property": "C11",
   "status": "proved",
   "theorems": [
    "Tokens.Props.C11_key_injective",
    "Tokens.Props.C11_short_sequences_collide"
   ],
   "note": ""
  },
  {
   "property": "C12",
   "status": "proved",
   "theorems": [
    "Tokens.Props.C12_sort_succeeds_iff",
    "Tokens.Props.C12_sort_keeps_meaning",
    "Tokens.Props.C12_sort_idempotent",
    "Tokens.Props.C12_sort_canonical"
   ],
   "note": ""
  },
  {
   "property": "C13",
   "status": "proved",
   "theorems": [
    "Tokens.Props.C13_remove_succeeds_iff",
    "Tokens.Props.C13_remove_keeps_rest",
    "Tokens.Props.C13_remove_long_accepted"
   ],
   "note": ""
  },
  {
   "property": "C14",
   "status": "proved",
   "theorems": [
    "Tokens.Props.C14_add_token",
    "Tokens.Props.C14_add_empty_panics",
    "Tokens.Props.C14_find_token"
   ],
   "note": ""
  },
  {
   "property": "C15",
   "status": "proved",
   "theorems": [
    "Tokens.Props.C15_bits1",
    "Tokens.Props.C15_bits2",
    "Tokens.Props.C15_bits4"
   ],
   "note": ""
  },
  {
   "property": "C16",
   "status": "proved",
   "theorems": [
    "Tokens.Props.C16_lossless",
    "Tokens.Props.C16_injective",
    "Tokens.Props.C16_made_family",
    "Tokens.Props.C16_made_lossless"
   ],
   "note": "decoder existence for the three families, and every set the program can make (constructors, add_token of a new string, remove_token of a long token, sort, byte optimizers) is in a family"
  },
  {
   "property": "C17",
   "status": "partial",
   "theorems": [
    "Tokens.Props.C17_roundtrip_partial",
    "Tokens.Props.C17_fails_flag",
    "Tokens.Props.C17_fails_bits",
    "Tokens.Props.C17_stats_file"
   ],
   "note": "Violated by the code: to_json writes split_paragraphs, from_json reads split_paragraph (C17_fails_flag); bits sets with a byte without its own token load with duplicate sequences and are rejected by the tokenizer (C17_fails_bits). The partial theorem is the round trip of everything else."
  },
  {
   "property": "C18",
   "status": "proved",
   "theorems": [
    "Tokens.Props.C18_token_roundtrip",
    "Tokens.Props.C18_token_injective"
   ],
   "note": ""
  },
  {
   "property": "C19",
   "status": "proved",
   "theorems": [
    "Tokens.Props.C19_name_iff"
   ],
   "note": ""
  },
  {
   "property": "C20",
   "status": "partial",
   "theorems": [
    "Tokens.Props.C20_reversible_partial",
    "Tokens.Props.C20_reversible_ascii",
    "Tokens.Props.C20_fails_marker",
    "Tokens.Props.C20_fails_dotted_i"
   ],
   "note": "Violated for texts containing the marker characters (C20_fails_marker) and for letters whose lowercase form starts like another letter's (C20_fails_dotted_i, U+0130); proved for every class of characters with one-to-one case mappings, in particular ASCII without the markers."
  },
  {
   "property": "C21",
   "status": "proved",
   "theorems": [
    "Tokens.Props.C21_file_equals_text",
    "Tokens.Props.C21_file_any",
    "Tokens.Props.C21_line_ends_lost"
   ],
   "note": ""
  },
  {
   "property": "C22",
   "status": "proved",
   "theorems": [
    "Tokens.Props.C22_process_is_documented"
   ],
   "note": ""
  },
  {
   "property": "C23",
   "status": "proved",
   "theorems": [
    "Tokens.Props.C23_memory_partition",
    "Tokens.Props.C23_chunk_size_zero"
   ],
   "note": ""
  },
  {
   "property": "C24",
   "status": "proved",
   "theorems": [
    "Tokens.Props.C24_file_partition"
   ],
   "note": ""
  },
  {
   "property": "C25",
   "status": "partial",
   "theorems": [
    "Tokens.Props.C25_memory_iff",
    "Tokens.Props.C25_file_iff",
    "Tokens.Props.C25_memory_exact_partial",
    "Tokens.Props.C25_ascii_exact_partial",
    "Tokens.Props.C25_fails_memory",
    "Tokens.Props.C25_fails_file"
   ],
   "note": "Violated by the code for every chunk size (C25_fails_memory, C25_fails_file); C25_memory_iff and C25_file_iff give the exact condition, the _partial theorems two sufficient conditions."
  },
  {
   "property": "C26",
   "status": "proved",
   "theorems": [
    "Tokens.Props.C26_find_paragraph_end",
    "Tokens.Props.C26_memory_cuts",
    "Tokens.Props.C26_file_cuts"
   ],
   "note": ""
  },
  {
   "property": "C27",
   "status": "partial",
   "theorems": [
    "Tokens.Props.C27_whole_paragraphs_partial",
    "Tokens.Props.C27_nonempty_iff",
    "Tokens.Props.C27_fails_single_paragraph"
   ],
   "note": "The first paragraph is never taken (0/0 is not less), so a single-paragraph file gives empty data: C27_fails_single_paragraph, C27_nonempty_iff."
  },
  {
   "property": "C28",
   "status": "proved",
   "theorems": [
    "Tokens.Props.C28_extract",
    "Tokens.Props.C28_extract_panics"
   ],
   "note": ""
  },
  {
   "property": "C29",
   "status": "proved",
   "theorems": [
    "Tokens.Props.C29_simple_size",
    "Tokens.Props.C29_simple_codes",
    "Tokens.Props.C29_simple_panics"
   ],
   "note": "size, header, long tokens, positional codes; panics outside the range"
  },
  {
   "property": "C30",
   "status": "proved",
   "theorems": [
    "Tokens.Props.C30_simple_optimal"
   ],
   "note": "against every set of the same bits family with at most as many byte tokens"
  },
  {
   "property": "C31",
   "status": "proved",
   "theorems": [
    "Tokens.Props.C31_bytes_tokenset",
    "Tokens.Props.C31_huff",
    "Tokens.Props.C31_each_byte_once",
    "Tokens.Props.C31_huff_small_panics"
   ],
   "note": "bytes_tokenset, HuffOptimizer; each byte once; n<3 panics"
  },
  {
   "property": "C32",
   "status": "proved",
   "theorems": [
    "Tokens.Props.C32_groups",
    "Tokens.Props.C32_zero_parts_panic",
    "Tokens.Props.C32_leader_most_frequent"
   ],
   "note": "groups of optimize_splits; code order in the resulting set; zero parts panic"
  },
  {
   "property": "C33",
   "status": "proved",
   "theorems": [
    "Tokens.Props.C33_bpe_new_string",
    "Tokens.Props.C33_any_threads"
   ],
   "note": "on statistics of any tokenization of any samples; add_token_bpe never panics; none iff no pair was seen"
  },
  {
   "property": "C34",
   "status": "proved",
   "theorems": [
    "Tokens.Props.C34_bpe_most_frequent",
    "Tokens.Props.C34_any_threads"
   ],
   "note": "on statistics of any tokenization (the only statistics the program makes); ties go to the pair that comes first"
  },
  {
   "property": "C35",
   "status": "partial",
   "theorems": [
    "Tokens.Props.C35_no_break_partial",
    "Tokens.Props.C35_fallback_adds_break",
    "Tokens.Props.C35_violated"
   ],
   "note": "Violated by the code: when every pair seen has text after a blank line, the loop leaves the last such text in new_token and adds it (C35_fallback_adds_break, C35_violated: two calls on the file \"\\n\\na\"). The partial theorem covers all other statistics."
  },
  {
   "property": "C36",
   "status": "proved",
   "theorems": [
    "Tokens.Props.C36_step",
    "Tokens.Props.C36_step_ends"
   ],
   "note": "All outcomes: any cache contents reached by earlier calls, any order of ties, any schedule. Also that a step ends."
  },
  {
   "property": "C37",
   "status": "proved",
   "theorems": [
    "Tokens.Props.C37_no_infinite_loop",
    "Tokens.Props.C37_bound",
    "Tokens.Props.C37_terminates",
    "Tokens.Props.C37_bound_all",
    "Tokens.Props.C37_no_dead_end"
   ],
   "note": "No infinite chain of rounds; an explicit bound on the number of rounds for every type (C37_bound_all; C37_bound is tighter and leaves out byteshuff); the function has an outcome; every unfinished execution agrees with the start of a successful one (C37_no_dead_end)."
  },
  {
   "property": "C38",
   "status": "partial",
   "theorems": [
    "Tokens.Props.C38_from_scratch",
    "Tokens.Props.C38_pretrained",
    "Tokens.Props.C38_pretrained_huff_partial",
    "Tokens.Props.C38_pretrained_violated"
   ],
   "note": "Proved from scratch for all types and sizes, and with a pretrained set for bits and bytes. With a pretrained byteshuff set the claim on total_tokens is false in general (C38_pretrained_violated); the rest is proved."
  },
  {
   "property": "C39",
   "status": "partial",
   "theorems": [
    "Tokens.Props.C39_sizes_partial",
    "Tokens.Props.C39_violated"
   ],
   "note": "False as stated: every size above n_ext+256 panics (C39_violated, for all data). The sizes that work are proved to work."
  },
  {
   "property": "C40",
   "status": "partial",
   "theorems": [
    "Tokens.Props.C40_result_partial",
    "Tokens.Props.C40_stops_close",
    "Tokens.Props.C40_terminates",
    "Tokens.Props.C40_violated_small",
    "Tokens.Props.C40_violated_zero",
    "Tokens.Props.C40_zero_forever",
    "Tokens.Props.C40_goes_on"
   ],
   "note": "Proved: a returned result is the statistics of a valid set on the full file, needing a round with 2^24 < size < file size. Violated as stated: all files of at most 2^24+1 bytes (or not larger than the minimum size) make it panic (C40_violated_small), and minimum size 0 never ends (C40_violated_zero). C40_stops_close and C40_goes_on bound the stop test from both sides."
  },
  {
   "property": "C41",
   "status": "proved",
   "theorems": [
    "Tokens.Props.C41_byte_saving",
    "Tokens.Props.C41_add_byte",
    "Tokens.Props.C41_any_threads"
   ],
   "note": "General statement for any byte optimizer, and without side conditions for the three of the program."
  },
  {
   "property": "C42",
   "status": "proved",
   "theorems": [
    "Tokens.Props.C42_pair_saving",
    "Tokens.Props.C42_pair_strict",
    "Tokens.Props.C42_any_threads"
   ],
   "note": "also: every addition strictly lowers the total"
  },
  {
   "property": "C43",
   "status": "proved",
   "theorems": [
    "Tokens.Props.C43_merge_order_independent"
   ],
   "note": ""
  },
  {
   "property": "C44",
   "status": "partial",
   "theorems": [
    "Tokens.Props.C44_counts_partial",
    "Tokens.Props.C44_panics_iff",
    "Tokens.Props.C44_violated_max",
    "Tokens.Props.C44_violated_sum"
   ],
   "note": "Proved: total, printed counts and maximum for texts with a character >= 256. Violated: the maximum reported for texts with all characters below 256 is NUL; characters >= 256 are not printed, so the printed counts need not add up."
  },
  {
   "property": "C45",
   "status": "proved",
   "theorems": [
    "Tokens.Props.C45_preloaded",
    "Tokens.Props.C45_preloaded_panics"
   ],
   "note": ""
  },
  {
   "property": "C46",
   "status": "proved",
   "theorems": [
    "Tokens.Props.C46_file_scanned",
    "Tokens.Props.C46_memory_scanned"
   ],
   "note": ""
  },
  {
   "property": "C47",
   "status": "proved",
   "theorems": [
    "Tokens.Props.C47_data",
    "Tokens.Props.C47_optimize_command",
    "Tokens.Props.C47_optimize_large"
   ],
   "note": "End-to-end theorem for the optimize command on the in-memory path (raw size below 2^34), with or without input token set."
  },
  {
   "property": "C48",
   "status": "partial",
   "theorems": [
    "Tokens.Props.C48_convert_partial",
    "Tokens.Props.C48_violated_bits",
    "Tokens.Props.C48_reuse_partial",
    "Tokens.Props.C48_violated_bits_input"
   ],
   "note": "Proved for bytes and byteshuff sets (and sets with a token for every byte). Violated for bits sets: convert and optimize --input-tokens panic on every saved bits set in which some byte has no token."
  },
  {
   "property": "C49",
   "status": "proved",
   "theorems": [
    "Tokens.Props.C49_budget_used",
    "Tokens.Props.C49_bits_exact"
   ],
   "note": "For every start that is valid (CanStart); for the bits types without exception."
  },
  {
   "property": "C50",
   "status": "proved",
   "theorems": [
    "Tokens.Props.C50_again"
   ],
   "note": "A step finds nothing if and only if a condition on the set (Stuck) holds that does not depend on numbering, order or threads; the set returned satisfies it."
  },
  {
   "property": "C51",
   "status": "proved",
   "theorems": [
    "Tokens.Props.C51_counters_bounded",
    "Tokens.Props.C51_sync_no_overflow",
    "Tokens.Props.C51_parallel_no_overflow",
    "Tokens.Props.C51_tokenize_file"
   ],
   "note": "Machine model with an arbitrary addition that is exact below 2^64 (checked and wrapping are instances); equal results in the sequential path and the same reachable states in the parallel path. Array indices (usize) are not covered: they are bounded by allocated memory."
  },
  {
   "property": "C52",
   "status": "proved",
   "theorems": [
    "Tokens.Props.C52_set_is_json",
    "Tokens.Props.C52_file_is_json",
    "Tokens.Props.C52_any_layout",
    "Tokens.Props.C52_file_roundtrip"
   ],
   "note": "The JSON text written denotes the value that was serialised, and the reader returns exactly that value."
  },
  {
   "property": "C53",
   "status": "proved",
   "theorems": [
    "Tokens.Props.C53_no_torn_file"
   ],
   "note": "Every proper prefix of the bytes of a written file is rejected by the reader."
  },
  {
   "property": "C54",
   "status": "proved",
   "theorems": [
    "Tokens.Props.C54_pretty_is_json",
    "Tokens.Props.C54_same_set",
    "Tokens.Props.C54_idempotent"
   ],
   "note": "Up to the decimal text of floating point numbers (Python repr), which the token set reader ignores."
  },
  {
   "property": "C55",
   "status": "proved",
   "theorems": [
    "Tokens.Props.C55_sample_size",
    "Tokens.Props.C55_one_percent"
   ],
   "note": "With the f64 arithmetic of the code modelled exactly (round to nearest even, 53 bits); subnormals and overflow cannot arise in the ranges covered."
  },
  {
   "property": "C56",
   "status": "proved",
   "theorems": [
    "Tokens.Props.C56_always_text",
    "Tokens.Props.C56_cut_characters",
    "Tokens.Props.C56_scanned"
   ],
   "note": "String::from_utf8_lossy (the Rust standard library scanner) is modelled exactly."
  },
  {
   "property": "C57",
   "status": "proved",
   "theorems": [
    "Tokens.Props.C57_optimize_killed",
    "Tokens.Props.C57_convert_killed",
    "Tokens.Props.C57_not_atomic",
    "Tokens.Props.C57_running_killed"
   ],
   "note": "Model of files: contents by path; a write truncates, then appends; the program may stop anywhere. C57_not_atomic shows what is not guaranteed. C57_running_killed covers executions that have not ended or never end."
  },
  {
   "property": "C58",
   "status": "proved",
   "theorems": [
    "Tokens.Props.C58_nothing_else",
    "Tokens.Props.C58_optimize_names",
    "Tokens.Props.C58_running_nothing_else",
    "Tokens.Props.C58_running_names"
   ],
   "note": "All commands, all outcomes, all stopping points, also of executions that never end."
  },
  {
   "property": "C59",
   "status": "proved",
   "theorems": [
    "Tokens.Props.C59_result_on_disk",
    "Tokens.Props.C59_optimize_succeeds",
    "Tokens.Props.C59_convert_after"
   ],
   "note": "For data below 2^34 bytes and without --min-data-size (for that option see C40). The sizes assumed for the files to be readable again (SmallEnough) are 2^54 bytes of data."
  },
  {
   "property": "C60",
   "status": "proved",
   "theorems": [
    "Tokens.Props.C60_process",
    "Tokens.Props.C60_process_invalid",
    "Tokens.Props.C60_process_files",
    "Tokens.Props.C60_onto_itself"
   ],
   "note": "The case output = data is C60_onto_itself (the data is lost)."
  },
  {
   "property": "C61",
   "status": "proved",
   "theorems": [
    "Tokens.Props.C61_loaded",
    "Tokens.Props.C61_in_range",
    "Tokens.Props.C61_loaded_usable"
   ],
   "note": "LoadedFrom (Spec/Loaded.lean) is the specification of the file format; the theorem is an equivalence, so it also says which values are rejected."
  },
  {
   "property": "C62",
   "status": "proved",
   "theorems": [
    "Tokens.Props.C62_readme_decoder",
    "Tokens.Props.C62_readme_decoder_ascii",
    "Tokens.Props.C62_readme_decoder_file"
   ],
   "note": "The README decoder is written out in Spec/Readme.lean (the program has none); general theorem for any class of characters with restorable capitals, its ASCII instance, and the version for process_file."
  },
  {
   "property": "C63",
   "status": "proved",
   "theorems": [
    "Tokens.Props.C63_same_in_any_context",
    "Tokens.Props.C63_single_spaces_cost_nothing",
    "Tokens.Props.C63_capitalized_shares_letters",
    "Tokens.Props.C63_all_caps_shares_letters",
    "Tokens.Props.C63_small_words_unchanged"
   ],
   "note": "README points 1-3 of the processing stage, for all words, contexts and character tables."
  },
  {
   "property": "C64",
   "status": "proved",
   "theorems": [
    "Tokens.Props.C64_random_samples",
    "Tokens.Props.C64_random_ascii",
    "Tokens.Props.C64_random_short_file"
   ],
   "note": "FileSampler with max_samples = Some(n) (compiled, but main.rs only uses None). Random numbers and read lengths are parameters. u64 subtraction is modelled as checked (a release build would wrap when the file is shorter than sample_size)."
  },
  {
   "property": "C65",
   "status": "proved",
   "theorems": [
    "Tokens.Props.C65_round_no_overflow",
    "Tokens.Props.C65_from_scratch_no_overflow",
    "Tokens.Props.C65_pretrained_no_overflow",
    "Tokens.Props.C65_ends"
   ],
   "note": "The optimizer once more with machine arithmetic (Model/MachineOpt.lean), for the two builds (checked, wrapping); equivalence of the sets of outcomes with the model on numbers for data below 2^45 bytes."
  },
  {
   "property": "C66",
   "status": "proved",
   "theorems": [
    "Tokens.Props.C66_reproducible",
    "Tokens.Props.C66_reproducible_pretrained",
    "Tokens.Props.C66_is_a_run",
    "Tokens.Props.C66_exists"
   ],
   "note": "Runs with a fixed sorting function (Model/Repeat.lean) are runs of the model, exist, and have one result; environments may differ in threads and total_size."
  },
  {
   "property": "C67",
   "status": "proved",
   "theorems": [
    "Tokens.Props.C67_cheapest_candidate",
    "Tokens.Props.C67_split_not_optimal"
   ],
   "note": "Cost = number of output tokens of the bytes with counts + 1, as in the code; C67_split_not_optimal shows that the doc comment of optimize_splits is not true."
  },
  {
   "property": "C68",
   "status": "proved",
   "theorems": [
    "Tokens.Props.C68_reader_exact",
    "Tokens.Props.C68_file_means",
    "Tokens.Props.C68_unambiguous"
   ],
   "note": "JSON grammar in Spec/JsonText.lean, independent of the reader; both directions proved. serde_json is modelled by hand (Model/JsonRead.lean); its error for floating point numbers that overflow f64 is not modelled."
  },
  {
   "property": "C69",
   "status": "proved",
   "theorems": [
    "Tokens.Props.C69_pair_bound",
    "Tokens.Props.C69_all_used",
    "Tokens.Props.C69_byte_kept"
   ],
   "note": "The factor one half is that of C42 (a pair of equal tokens); add_token prefers the byte set only if it is predicted to save more, so the bound holds in that case too."
  },
  {
   "property": "C70",
   "status": "proved",
   "theorems": [
    "Tokens.Props.C70_bytes_best",
    "Tokens.Props.C70_most_frequent"
   ],
   "note": "Bits types only (for byteshuff see C67: its choice is greedy)."
  },
  {
   "property": "C71",
   "status": "proved",
   "theorems": [
    "Tokens.Props.C71_from_data",
    "Tokens.Props.C71_no_data"
   ],
   "note": "Invariant of the loop, in a second pass over the weakest preconditions."
  },
  {
   "property": "C72",
   "status": "proved",
   "theorems": [
    "Tokens.Props.C72_cuts_cost_little",
    "Tokens.Props.C72_how_it_is_cut",
    "Tokens.Props.C72_any_threads"
   ],
   "note": "By C07 also for the parallel tokenizer."
  },
  {
   "property": "C73",
   "status": "proved",
   "theorems": [
    "Tokens.Props.C73_bounds",
    "Tokens.Props.C73_by_type",
    "Tokens.Props.C73_any_threads"
   ],
   "note": "For byteshuff k = 256 is what the family guarantees (a code is at most 256 tokens long)."
  },
  {
   "property": "C74",
   "status": "proved",
   "theorems": [
    "Tokens.Props.C74_counts_of_recoverable_tokens",
    "Tokens.Props.C74_pipeline_lossless",
    "Tokens.Props.C74_pipeline_lossless_memory",
    "Tokens.Props.C74_pipeline_ascii",
    "Tokens.Props.C74_any_threads"
   ],
   "note": "The program has no decoder; the theorem says that one exists, and for the processing stage it is the README's."
  },
  {
   "property": "C75",
   "status": "proved",
   "theorems": [
    "Tokens.Props.C75_token_text_unique",
    "Tokens.Props.C75_line",
    "Tokens.Props.C75_line_determined",
    "Tokens.Props.C75_line_readable"
   ],
   "note": "The table of printable characters of the standard library is a parameter."
  },
  {
   "property": "C76",
   "status": "proved",
   "theorems": [
    "Tokens.Props.C76_pair_is_text",
    "Tokens.Props.C76_any_threads"
   ],
   "note": ""
  },
  {
   "property": "C77",
   "status": "proved",
   "theorems": [
    "Tokens.Props.C77_files_improve",
    "Tokens.Props.C77_running"
   ],
   "note": ""
  },
  {
   "property": "C78",
   "status": "partial",
   "theorems": [
    "Tokens.Props.C78_process_partial",
    "Tokens.Props.C78_violated",
    "Tokens.Props.C78_violated_any",
    "Tokens.Props.C78_process_works",
    "Tokens.Props.C78_not_text",
    "Tokens.Props.C78_files",
    "Tokens.Props.C78_files_torn"
   ],
   "note": "The BufWriter of process_file is dropped without flush(), so the error of its last write is ignored: for every non-empty text there is a run that reports success with incomplete output (C78_violated); a short text may be lost altogether (C78_violated_any)."
  },
  {
   "property": "C79",
   "status": "proved",
   "theorems": [
    "Tokens.Props.C79_tokenizes",
    "Tokens.Props.C79_one_way",
    "Tokens.Props.C79_empty_token_panics"
   ],
   "note": "Dead code (not declared in main.rs), modelled because it is in the repository. JSON of the old format and ntokens bookkeeping are not part of the claim. u32 keys: with more than 65536 tokens pair counts are wrong or the addition overflows, hence the hypothesis."
  },
  {
   "property": "C80",
   "status": "proved",
   "theorems": [
    "Tokens.Props.C80_threads_agree",
    "Tokens.Props.C80_every_schedule"
   ],
   "note": "Dead code, see C79. Runs are described from outside (which worker takes which samples, order of results); the channel protocol itself is modelled only for the current tokenizer (C05-C09)."
  },
  {
   "property": "C81",
   "status": "proved",
   "theorems": [
    "Tokens.Props.C81_any_threads",
    "Tokens.Props.C81_words_cost_one_token",
    "Tokens.Props.C81_spaced_words"
   ],
   "note": "From C22 (documented rewriting) and C05 (optimality); the text is tokenized as one sample, for several samples see C72."
  },
  {
   "property": "C82",
   "status": "proved",
   "theorems": [
    "Tokens.Props.C82_exact",
    "Tokens.Props.C82_order",
    "Tokens.Props.C82_program",
    "Tokens.Props.C82_one_meaning"
   ],
   "note": "clap is modelled from its documentation and source as known (no copy in the sandbox): options with one value, no positional arguments; help, version and error texts are all \"refused\". Arguments are Unicode text."
  },
  {
   "property": "C83",
   "status": "proved",
   "theorems": [
    "Tokens.Props.C83_lines",
    "Tokens.Props.C83_lines_any",
    "Tokens.Props.C83_process",
    "Tokens.Props.C83_process_text",
    "Tokens.Props.C83_process_works",
    "Tokens.Props.C83_count",
    "Tokens.Props.C83_sample",
    "Tokens.Props.C83_memory",
    "Tokens.Props.C83_token_set",
    "Tokens.Props.C83_file_sampler",
    "Tokens.Props.C83_file_sampler_fails"
   ],
   "note": "Per reader; for whole commands see C85. ErrorKind::Interrupted is retried by the standard library readers; FileSampler treats it as a failure (panic)."
  },
  {
   "property": "C84",
   "status": "partial",
   "theorems": [
    "Tokens.Props.C84_prepare_partial",
    "Tokens.Props.C84_convert_partial",
    "Tokens.Props.C84_optimize_partial",
    "Tokens.Props.C84_works",
    "Tokens.Props.C84_violated_convert",
    "Tokens.Props.C84_violated_optimize"
   ],
   "note": "Same defect as C78, in maybe_process_file: the error of the last write to the temporary file is ignored, so convert and optimize may work on a shortened text (at most 8192 bytes are missing) and report success; for short texts on nothing at all (C84_violated_convert, C84_violated_optimize)."
  },
  {
   "property": "C85",
   "status": "proved",
   "theorems": [
    "Tokens.Props.C85_success",
    "Tokens.Props.C85_success_optimize",
    "Tokens.Props.C85_success_convert",
    "Tokens.Props.C85_success_process",
    "Tokens.Props.C85_works",
    "Tokens.Props.C85_optimize_files",
    "Tokens.Props.C85_convert_files",
    "Tokens.Props.C85_nothing_else",
    "Tokens.Props.C85_any_moment"
   ],
   "note": "The full claim as stated holds; that up to 8192 bytes may be missing with own processing is the defect of C78 and C84. A FileSampler that is iterated many times (optimize of 2^34 bytes or more) reads full buffers or fails. Why a command fails is not modelled in detail: it may fail at any moment."
  },
  {
   "property": "C86",
   "status": "proved",
   "theorems": [
    "Tokens.Props.C86_slice",
    "Tokens.Props.C86_least",
    "Tokens.Props.C86_samples"
   ],
   "note": "Dead code (chars/, not declared in main.rs). Finding: the cost of a character below 256 without an encoding is 0 (the table is filled with 0), of others 32. The length of an encoding is stored in a u8, hence the hypothesis; C90 shows that the sets the module makes itself meet it."
  },
  {
   "property": "C87",
   "status": "proved",
   "theorems": [
    "Tokens.Props.C87_accepts"
   ],
   "note": "Dead code, see C86."
  },
  {
   "property": "C88",
   "status": "proved",
   "theorems": [
    "Tokens.Props.C88_share",
    "Tokens.Props.C88_share_12",
    "Tokens.Props.C88_limit",
    "Tokens.Props.C88_log",
    "Tokens.Props.C88_entropy"
   ],
   "note": "Consequence of the greedy merging of the two lightest neighbours; constants as proved, not claimed to be best possible."
  },
  {
   "property": "C89",
   "status": "proved",
   "theorems": [
    "Tokens.Props.C89_encodings",
    "Tokens.Props.C89_written",
    "Tokens.Props.C89_decodable"
   ],
   "note": "Dead code, see C86. The module has no decoder; the theorem says that one exists. Above 65536 tokens the u16 keys of the pair table wrap, hence the bound."
  },
  {
   "property": "C90",
   "status": "proved",
   "theorems": [
    "Tokens.Props.C90_counts",
    "Tokens.Props.C90_best",
    "Tokens.Props.C90_few",
    "Tokens.Props.C90_share",
    "Tokens.Props.C90_limit"
   ],
   "note": "Dead code, see C86."
  },
  {
   "property": "C91",
   "status": "proved",
   "theorems": [
    "Tokens.Props.C91_outcome",
    "Tokens.Props.C91_result",
    "Tokens.Props.C91_total",
    "Tokens.Props.C91_many_chars",
    "Tokens.Props.C91_long_sample"
   ],
   "note": "Dead code, see C86. The panic is the unwrap() of the best pair in select_token_bpe."
  },
  {
   "property": "C92",
   "status": "partial",
   "theorems": [
    "Tokens.Props.C92_cache_partial",
    "Tokens.Props.C92_key_collision",
    "Tokens.Props.C92_other_order"
   ],
   "note": "Dead code (optimizer.rs, not declared in main.rs). Partial because the code violates the full claim: C92_key_collision (keys are the sorted texts joined with the byte 0, so a token with that byte is confused with two tokens) and C92_other_order (cached counts are numbered in the order of the set that was asked first). C92_cache_partial is the rest."
  },
  {
   "property": "C93",
   "status": "proved",
   "theorems": [
    "Tokens.Props.C93_exchange",
    "Tokens.Props.C93_panics"
   ],
   "note": "Dead code (optimizer.rs, not declared in main.rs). The panic is the unwrap() in add_token; C93_panics shows a case. The bound 2^32 is from the sort key, which has the attempts in the upper 32 bits."
  },
  {
   "property": "C94",
   "status": "proved",
   "theorems": [
    "Tokens.Props.C94_add_tokens"
   ],
   "note": "Dead code (optimizer.rs, not declared in main.rs). "
  },
  {
   "property": "C95",
   "status": "proved",
   "theorems": [
    "Tokens.Props.C95_bpe",
    "Tokens.Props.C95_endless"
   ],
   "note": "Dead code (optimizer.rs, not declared in main.rs). Finding: C95_endless, add_tokens_bpe never ends once every sample is a token."
  },
  {
   "property": "C96",
   "status": "proved",
   "theorems": [
    "Tokens.Props.C96_bytes",
    "Tokens.Props.C96_fixed_panics"
   ],
   "note": "Dead code (optimizer.rs, not declared in main.rs). Finding: C96_fixed_panics (assert in remove_token for mandatory tokens)."
  },
  {
   "property": "C97",
   "status": "proved",
   "theorems": [
    "Tokens.Props.C97_saved"
   ],
   "note": "Dead code (optimizer.rs, not declared in main.rs). "
  },
  {
   "property": "C98",
   "status": "partial",
   "theorems": [
    "Tokens.Props.C98_ends_partial",
    "Tokens.Props.C98_tie",
    "Tokens.Props.C98_endless"
   ],
   "note": "Dead code (optimizer.rs, not declared in main.rs). Partial because the code violates the full claim: C98_tie (the last assertion asks for a strictly lower cost) and C98_endless (clock). C98_ends_partial is the rest."
  },
  {
   "property": "C99",
   "status": "proved",
   "theorems": [
    "Tokens.Props.C99_block",
    "Tokens.Props.C99_load"
   ],
   "note": "Dead code (optimizer.rs, not declared in main.rs). Finding: min_tokens = 0 never ends."
  },
  {
   "property": "C100",
   "status": "partial",
   "theorems": [
    "Tokens.Props.C100_file_says",
    "Tokens.Props.C100_roundtrip_partial",
    "Tokens.Props.C100_distribution"
   ],
   "note": "Dead code (tokens.rs). The file is the JSON value; the text printed and parsed by the crate json is not modelled. Partial because the code violates the full claim: C100_distribution."
  },
  {
   "property": "C101",
   "status": "proved",
   "theorems": [
    "Tokens.Props.C101_files",
    "Tokens.Props.C101_zero"
   ],
   "note": "Dead code (optimizer.rs, not declared in main.rs). A file is a JSON value; writing is atomic in this model."
  },
  {
   "property": "C102",
   "status": "partial",
   "theorems": [
    "Tokens.Props.C102_exchange_partial",
    "Tokens.Props.C102_no_samples",
    "Tokens.Props.C102_missed"
   ],
   "note": "Dead code (optimizer.rs, not declared in main.rs). Nothing calls it. Partial because the code violates the full claim: C102_missed (after the first important token is skipped it is not put back, so no later token can pay off). C102_no_samples: the panic."
  },
  {
   "property": "C103",
   "status": "proved",
   "theorems": [
    "Tokens.Props.C103_file",
    "Tokens.Props.C103_determined"
   ],
   "note": "Dead code (chars/). The text of serde_json::to_string_pretty is modelled; the decimal text of the quotient is any text of the right shape. A failing write is not modelled."
  },
  {
   "property": "C104",
   "status": "proved",
   "theorems": [
    "Tokens.Props.C104_in_flight",
    "Tokens.Props.C104_reached",
    "Tokens.Props.C104_file_bytes",
    "Tokens.Props.C104_accounted",
    "Tokens.Props.C104_same_results"
   ],
   "note": "Model/Lazy splits reading from sending; C104_same_results relates it to the model of C05-C09. Only samples are counted, not the statistics of the workers or the channel of results."
  },
  {
   "property": "C105",
   "status": "proved",
   "theorems": [
    "Tokens.Props.C105_failing_sampler",
    "Tokens.Props.C105_file"
   ],
   "note": "jobs_tx is owned by the closure of thread::scope, so unwinding closes the channel and the workers end; scope then resumes the panic. Workers that fail themselves are C09."
  },
  {
   "property": "C106",
   "status": "proved",
   "theorems": [
    "Tokens.Props.C106_work",
    "Tokens.Props.C106_linear",
    "Tokens.Props.C106_data",
    "Tokens.Props.C106_states"
   ],
   "note": "Rounds of loops, not time. Reallocation of vectors and the copies of keys in new() are not counted."
  },
  {
   "property": "C107",
   "status": "proved",
   "theorems": [
    "Tokens.Props.C107_passes",
    "Tokens.Props.C107_no_pass",
    "Tokens.Props.C107_same_runs",
    "Tokens.Props.C107_round",
    "Tokens.Props.C107_optimize",
    "Tokens.Props.C107_bound"
   ],
   "note": "C107_bound has two bounds: one for every type (from C37_bound_all) and a smaller one for the types other than byteshuff (from C37_bound)."
  },
  {
   "property": "C108",
   "status": "proved",
   "theorems": [
    "Tokens.Props.C108_counts",
    "Tokens.Props.C108_accepted",
    "Tokens.Props.C108_cache",
    "Tokens.Props.C108_optimizer",
    "Tokens.Props.C108_command"
   ],
   "note": "C108_optimizer is about the set of possible outcomes: removal_count ties are broken by an unstable sort, which may depend on the order of the list. With a fixed sorting function two orders may come to different members of that set."
  },
  {
   "property": "C109",
   "status": "proved",
   "theorems": [
    "Tokens.Props.C109_at_most",
    "Tokens.Props.C109_doubles_at_most",
    "Tokens.Props.C109_ascii",
    "Tokens.Props.C109_reached",
    "Tokens.Props.C109_file_at_most",
    "Tokens.Props.C109_file",
    "Tokens.Props.C109_command_at_most",
    "Tokens.Props.C109_command"
   ],
   "note": "The bound 2*len+1 is reached (C109_reached), so the capacity 2*len reserved by process can be one byte too small (harmless: the string is reallocated). How much lowercase letters may grow is a parameter; for ASCII they do not."
  },
  {
   "property": "C110",
   "status": "proved",
   "theorems": [
    "Tokens.Props.C110_edit",
    "Tokens.Props.C110_append",
    "Tokens.Props.C110_any_threads"
   ],
   "note": "PiecesUpTo and BytesWithin are the longest piece and the most expensive byte of the set."
  },
  {
   "property": "C111",
   "status": "proved",
   "theorems": [
    "Tokens.Props.C111_same_runs",
    "Tokens.Props.C111_replay",
    "Tokens.Props.C111_exchanges",
    "Tokens.Props.C111_console",
    "Tokens.Props.C111_text"
   ],
   "note": "Events are the calls of print!/println!; Printed.Shows gives their characters. How f64 and paths are written is a parameter (OneLine: without line breaks)."
  },
  {
   "property": "C112",
   "status": "proved",
   "theorems": [
    "Tokens.Props.C112_rates",
    "Tokens.Props.C112_never_worse"
   ],
   "note": "Rates are the f64 quotients of Model/Float; how they are written is a parameter."
  },
  {
   "property": "C113",
   "status": "proved",
   "theorems": [
    "Tokens.Props.C113_attempts",
    "Tokens.Props.C113_lines",
    "Tokens.Props.C113_all_tried"
   ],
   "note": "Ties are in any order (sort_unstable)."
  },
  {
   "property": "C114",
   "status": "proved",
   "theorems": [
    "Tokens.Props.C114_same_optimize",
    "Tokens.Props.C114_same_convert",
    "Tokens.Props.C114_optimizer",
    "Tokens.Props.C114_optimize_command",
    "Tokens.Props.C114_convert_command"
   ],
   "note": "File names are those within the directory. A file is its contents, as in C47."
  },
  {
   "property": "C115",
   "status": "proved",
   "theorems": [
    "Tokens.Props.C115_success",
    "Tokens.Props.C115_failure",
    "Tokens.Props.C115_not_worse"
   ],
   "note": "Rates are the f64 quotients of Model/Float. A success needs a file above 2^24 bytes with two paragraphs (see C40); increasing_success shows that there are such runs."
  },
  {
   "property": "C116",
   "status": "proved",
   "theorems": [
    "Tokens.Props.C116_counts",
    "Tokens.Props.C116_order",
    "Tokens.Props.C116_order_reproducible",
    "Tokens.Props.C116_repeat"
   ],
   "note": "byteshuff is left out of the repetition because HuffOptimizer adds one to every count."
  },
  {
   "property": "C117",
   "status": "proved",
   "theorems": [
    "Tokens.Props.C117_converted",
    "Tokens.Props.C117_only_the_set",
    "Tokens.Props.C117_only_the_set_optimize",
    "Tokens.Props.C117_twice",
    "Tokens.Props.C117_short_sequences_lost"
   ],
   "note": "Sizes are limited so that the saved numbers fit into 64 bits; the paragraph flag is lost (C17), so C117_twice is for sets with the flag off. The file written must not be the data file."
  },
  {
   "property": "C118",
   "status": "proved",
   "theorems": [
    "Tokens.Props.C118_same_result",
    "Tokens.Props.C118_output",
    "Tokens.Props.C118_progress",
    "Tokens.Props.C118_readable",
    "Tokens.Props.C118_bad_file"
   ],
   "note": "Exact output of count_chars (progress lines, total, low characters, maximum), for every text and every file that is not UTF-8. Which characters Rust prints as they are is a parameter (plain)."
  },
  {
   "property": "C119",
   "status": "proved",
   "theorems": [
    "Tokens.Props.C119_few_short",
    "Tokens.Props.C119_long_output",
    "Tokens.Props.C119_entropy",
    "Tokens.Props.C119_near_best"
   ],
   "note": "The codes compared with are any functions from bytes to lists of k symbols from which texts can be read back (ReadableCode); the inequality of Kraft and McMillan is that of Mathlib."
  },
  {
   "property": "C120",
   "status": "proved",
   "theorems": [
    "Tokens.Props.C120_entropy",
    "Tokens.Props.C120_range",
    "Tokens.Props.C120_lower_bound",
    "Tokens.Props.C120_zero_iff"
   ],
   "note": "f64 is taken as exact real numbers: rounding of dist_entropy is not modelled. The module is not part of the program."
  },
  {
   "property": "C121",
   "status": "proved",
   "theorems": [
    "Tokens.Props.C121_token",
    "Tokens.Props.C121_shown",
    "Tokens.Props.C121_order",
    "Tokens.Props.C121_readable"
   ],
   "note": "Which characters Rust prints as they are is a parameter (plain). The modules are not part of the program."
  },
  {
   "property": "C122",
   "status": "proved",
   "theorems": [
    "Tokens.Props.C122_memory_pairs",
    "Tokens.Props.C122_file_pairs",
    "Tokens.Props.C122_memory_few",
    "Tokens.Props.C122_file_few",
    "Tokens.Props.C122_optimize_small",
    "Tokens.Props.C122_optimize_large",
    "Tokens.Props.C122_convert"
   ],
   "note": "Reads of the file sampler are taken to be full here; with short reads there is no lower bound on the size of a sample."
  },
  {
   "property": "C123",
   "status": "proved",
   "theorems": [
    "Tokens.Props.C123_left_usable",
    "Tokens.Props.C123_resume"
   ],
   "note": "Restricted to types bytes and byteshuff, as stated: files of the bits types cannot be loaded (C48). For byteshuff the result can need more output tokens than a set that is not full (C38)."
  },
  {
   "property": "C124",
   "status": "proved",
   "theorems": [
    "Tokens.Props.C124_convert",
    "Tokens.Props.C124_optimize",
    "Tokens.Props.C124_running",
    "Tokens.Props.C124_not_text",
    "Tokens.Props.C124_left_over"
   ],
   "note": "A failing device is left out here (C78, C84): the temporary file and the output are written whole."
  },
  {
   "property": "C125",
   "status": "proved",
   "theorems": [
    "Tokens.Props.C125_convert",
    "Tokens.Props.C125_optimize",
    "Tokens.Props.C125_is_a_run",
    "Tokens.Props.C125_optimize_exists",
    "Tokens.Props.C125_convert_exists",
    "Tokens.Props.C125_short_reads"
   ],
   "note": "The sort is a function of the keys and the list, and reads are full: both are assumptions about the surroundings. Which error is reported when several files cannot be read is left open."
  },
  {
   "property": "C126",
   "status": "proved",
   "theorems": [
    "Tokens.Props.C126_apart",
    "Tokens.Props.C126_commands",
    "Tokens.Props.C126_types",
    "Tokens.Props.C126_goes_on"
   ],
   "note": "A command reads its input when it starts (as in the model of the commands on files). For runs that write the same files see C128; the names of optimizations of the same type and processing can coincide also for different sizes, as sets saved on the way are named by their current size."
  },
  {
   "property": "C127",
   "status": "proved",
   "theorems": [
    "Tokens.Props.C127_sizes",
    "Tokens.Props.C127_others_kept",
    "Tokens.Props.C127_all_sizes",
    "Tokens.Props.C127_overwrites"
   ],
   "note": "The second part is a possibility, not a certainty: whether files are written on the way is up to the clock (in the code: 60 s since the last save)."
  },
  {
   "property": "C128",
   "status": "proved",
   "theorems": [
    "Tokens.Props.C128_same",
    "Tokens.Props.C128_process",
    "Tokens.Props.C128_torn",
    "Tokens.Props.C128_unreadable",
    "Tokens.Props.C128_convert"
   ],
   "note": "The program writes its files in place (no temporary file and rename, no lock); C128_torn, C128_unreadable and C128_convert show what that costs."
  },
  {
   "property": "C129",
   "status": "proved",
   "theorems": [
    "Tokens.Props.C129_alone",
    "Tokens.Props.C129_seen",
    "Tokens.Props.C129_convert",
    "Tokens.Props.C129_optimize"
   ],
   "note": "A command reads its files at its start in the model (src/main.rs reads the token set at once, before it writes anything; the data file is read later, and no run writes it under the hypotheses)."
  },
  {
   "property": "C130",
   "status": "proved",
   "theorems": [
    "Tokens.Props.C130_covered",
    "Tokens.Props.C130_superset",
    "Tokens.Props.C130_types",
    "Tokens.Props.C130_remove",
    "Tokens.Props.C130_halves",
    "Tokens.Props.C130_remove_any",
    "Tokens.Props.C130_unused",
    "Tokens.Props.C130_unused_same",
    "Tokens.Props.C130_used_often"
   ],
   "note": "byteshuff is not in the comparison of types: its codes have different lengths. C130_covered applies to it, too."
  },
  {
   "property": "C131",
   "status": "proved",
   "theorems": [
    "Tokens.Props.C131_beginnings",
    "Tokens.Props.C131_killed",
    "Tokens.Props.C131_one_file"
   ],
   "note": "With --min-data-size 0 the command has no complete execution at all on small files (C40); an example shows it."
  },
  {
   "property": "C132",
   "status": "proved",
   "theorems": [
    "Tokens.Props.C132_counts_add_up",
    "Tokens.Props.C132_any_threads",
    "Tokens.Props.C132_no_sequences",
    "Tokens.Props.C132_gain_bounded"
   ],
   "note": "Follows the counters of one segmentation (C02) through all samples and threads."
  },
  {
   "property": "C133",
   "status": "proved",
   "theorems": [
    "Tokens.Props.C133_file_determines_set",
    "Tokens.Props.C133_file_is_enough",
    "Tokens.Props.C133_text_from_file",
    "Tokens.Props.C133_optimize_file"
   ],
   "note": "The sets that optimize writes are regular and lossless (C59). The paragraph flag is not in the file (C17); it does not matter for decoding."
  },
  {
   "property": "C134",
   "status": "proved",
   "theorems": [
    "Tokens.Props.C134_same_numbers",
    "Tokens.Props.C134_fixed_point"
   ],
   "note": "Without --min-size, and between 2^20 and 2^34 bytes, the optimizer counts the samples of the memory sampler, which may be cut at other places than those of the file sampler; nothing is claimed then."
  },
  {
   "property": "C135",
   "status": "proved",
   "theorems": [
    "Tokens.Props.C135_convert_numbers",
    "Tokens.Props.C135_optimize_numbers"
   ],
   "note": "The quotient itself is the parameter ratio of the machine: a function of the two numbers; the file stands for the JSON value that serde reads from it."
  },
  {
   "property": "C136",
   "status": "proved",
   "theorems": [
    "Tokens.Props.C136_name_iff",
    "Tokens.Props.C136_saved_is_found",
    "Tokens.Props.C136_slash",
    "Tokens.Props.C136_empty_dir",
    "Tokens.Props.C136_generations"
   ],
   "note": "This also justifies Model/OldAll.lean, which takes the directory as a map from numbers of tokens to files. The empty directory is a deviation, proved as C136_empty_dir. That the operating system takes a doubled slash for one is not modelled."
  },
  {
   "property": "C137",
   "status": "proved",
   "theorems": [
    "Tokens.Props.C137_optimize_is_real",
    "Tokens.Props.C137_convert_is_real"
   ],
   "note": "Joins C135 (the number in the file), C133 (the file is enough to decode) and C62 (the decoder). The tokens are places in the list of tokens, so they are bounded by the length of that list; without this bound the claim would be empty."
  },
  {
   "property": "C138",
   "status": "proved",
   "theorems": [
    "Tokens.Props.C138_optimize_text",
    "Tokens.Props.C138_convert_text"
   ],
   "note": "C137 and C62/C133 joined: from the command line to the text and back. The decoder reads from the file itself whether the text was processed."
  }
 ]
}