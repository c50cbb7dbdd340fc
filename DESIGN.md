# Formal model of eterevsky/tokens in Lean 4 - design

## Layout

* `lean/Verif/Model/*.lean` - executable model, function by function; each definition cites the `/repo` file and lines.
* `lean/Verif/Spec/*.lean` - small specifications written without the model's helpers
  (segmentations, decoders, word grammar, paragraphs, JSON grammar, files, ...).
* `lean/Verif/Proofs/*.lean` - helper lemmas, invariants.
* `lean/Verif/Props/*.lean` - the property theorems `Cnn_...`, each with a concrete case that meets its hypotheses.
* `properties.jsonl` - the properties in English; `MANIFEST.json` - property -> theorems and status.
* `seeded/LOG.jsonl` - wrong programs tried against the theorems (one edit of the model per line).
* `conformance/` - scripts that compare the model with data left by the real program and with a second
  transliteration (evidence, not proof).

## Modelling conventions

* Panics (assert, unwrap, expect, index, slice, unreachable, checked subtraction) are explicit values:
  `R α = Except Err α`. `Result`/`Option` stay data.
* `Vec` = `List`, `HashMap` = function `K → Option V` where it is never iterated, `&mut` = returned value.
* Loops = structural recursion, or recursion with a fuel argument that returns `Err.fuel` when it runs out;
  theorems show that `Err.fuel` is not returned, i.e. the loop ends.
* Counters are `Nat` in the base model. C51 (tokenizer, batch) and C65 (optimizer) re-model the code with
  64-bit arithmetic, checked or wrapping, and prove the outcomes equal below explicit data sizes.
* `f64` arithmetic is modelled exactly where it decides something (Model/Float: round to nearest even, 53 bits, NaN).
* Clock readings, orders that unstable sorts may give to ties, short reads, random numbers and Unicode
  tables are parameters; the theorems quantify over them.
* Threads: a transition system with one rule per visible action (send, receive, process, result, panic).
* The optimizer is a program (`Prog`) that asks for statistics; a run answers the questions by any run of the
  cache + tokenizer + threads. A weakest-precondition calculus, proved sound for all runs, gives the theorems.
* Files: a map from paths to bytes; a write truncates, then appends in pieces; a kill may happen between any two steps.

## Properties

| id | property | modelled | proof | status |
|---|---|---|---|---|
| C01 | Tokenization is optimal | `FragmentTokenizer::new` and `process_slice` (Model/Tokenizer) | DP invariant (`cost[i]` = least cost of the prefix) over the automaton invariant (state = longest suffix of the text read that is a prefix of a span); optimality against *all* segmentations (Spec/Segmentation) | proved |
| C02 | Statistics describe one optimal segmentation | `update_stats`, the traceback | the traceback reads off one segmentation; counting lemmas per field | proved |
| C03 | Tokenizer construction fails exactly on unusable token sets; tokenizing never panics | `create_spans`, `create_suffix_states` | both directions of the iff; `Err.fuel` unreachable; index bounds from the automaton invariant | proved |
| C04 | Tie-breaking is deterministic: the longest last piece wins | the tie rule of the DP | invariant on the stored span: longest among the optimal last pieces; uniqueness by induction on the text | proved |
| C05 | Accounting identity of the statistics | `tokenize_file_sync`, statistics | induction over samples | proved |
| C06 | Adding a token never makes tokenization worse | `add_token` + tokenizer | every segmentation of the old set is one of the new set, then C01 | proved |
| C07 | Parallel tokenization equals sequential tokenization | `tokenize_file`, `worker`: transition system, one rule per send/recv/lock/process (Model/Batch) | inductive invariant (conservation of samples), commutativity of `merge` | proved |
| C08 | Parallel tokenization neither deadlocks nor runs forever | the same | decreasing measure; enabledness by cases on the state | proved |
| C09 | A failing worker must not hang the run | the same, with worker panic | invariant of all continuations after a panic: main blocked for ever | partial |
| C10 | The tokenizer cache is transparent | `TokenizerCache` (Model/Cache) | invariant over the call history; C11 + C12 for the key | proved |
| C11 | The cache key identifies the token set | `to_json` as key | injectivity of the JSON value; collision witness for 1-token sequences | proved |
| C12 | Sorting a token set keeps its meaning | `TokenSet::sort` | permutation + renumbering; canonical form | proved |
| C13 | Removing a token leaves the rest unchanged | `remove_token` | views (Spec/Views) of the set before and after | proved |
| C14 | Adding a token gives it a token and drops only its own sequence | `add_token`, `find_token` | the same | proved |
| C15 | Bits encodings are positional codes of the byte | `new_bits1/2/4` | digit arithmetic; per byte checks by kernel evaluation over all 256 bytes (the full domain) | proved |
| C16 | Tokenization is lossless | all constructors and transformers | family invariants closed under every operation; explicit decoder per family | proved |
| C17 | Saved token sets load back unchanged | `to_json`, `from_json` | inversion of the writer; witnesses for the two failures | partial |
| C18 | Single tokens survive JSON | `Token::to_json`, `parse_token`, UTF-8 test | UTF-8 decode/encode round trip | proved |
| C19 | The file name identifies size, processing and type | `TokenSet::name` | decimal representation and separators are injective | proved |
| C20 | caps-words processing is reversible | `process` with the Unicode tables as parameter | word grammar + decoder; witnesses | partial |
| C21 | Line-by-line processing equals whole-text processing | `process_file`, `BufRead::lines` | line induction with carried state | proved |
| C22 | Word markers are placed as documented | `process`, `add_word` | state machine = grammar of Spec/Words | proved |
| C23 | The in-memory sampler partitions the data | `MemorySampler` | recursion on the rest of the data | proved |
| C24 | The file sampler reads the whole file once under any short reads | `FileIterator`, short reads as parameter | the same; the read loop needs at most as many reads as bytes | proved |
| C25 | Sampling valid UTF-8 neither fails nor changes bytes | samplers + lossy decoding | iff with "every cut is a character boundary" | partial |
| C26 | Samples end at paragraph boundaries when possible | `find_paragraph_end` | maximality by search invariant | proved |
| C27 | Down-sampling keeps whole paragraphs in order | `sample_from_file` with exact `f64` (Model/Float) | loop invariant; NaN case by evaluation | partial |
| C28 | Extracting a valid UTF-8 slice | `extract_valid_utf8_slice` | UTF-8 boundary lemmas | proved |
| C29 | The bits optimizer returns a set of the requested size | `SimpleBytesOptimizer` | counting; sort | proved |
| C30 | The bits optimizer picks the most frequent bytes | the same | exchange argument | proved |
| C31 | Huffman byte sets cover every byte exactly once and are decodable | `HuffOptimizer`, `optimize_bytes_tokenset` | induction on the interval size | proved |
| C32 | Huffman groups are led by their most frequent byte | `optimize_splits` | loop invariant | proved |
| C33 | BPE never adds an existing token | `add_token_bpe` | a pair of adjacent pieces of an optimal segmentation never spells a token | proved |
| C34 | BPE adds the most frequent admissible pair | the same | loop invariant of the maximum | proved |
| C35 | Tokens never span paragraphs | the same | as C34; witness from two real calls | partial |
| C36 | Every optimization step improves or grows the set | `optimization_step` and everything below it, as a program over `get_stats`/`get_stats_with_pairs` calls (Model/Optimize) | weakest preconditions sound for all runs; C41/C42 for the decrease | proved |
| C37 | Optimization terminates | `optimize_tokenset_impl` loop | lexicographic measure; explicit bound | proved |
| C38 | The optimizer's result is valid, within budget and no worse than its start | `optimize_tokenset` | composition of C12, C16, C36 | partial |
| C39 | Optimizing to any size works | the same | classification of the starting sizes | partial |
| C40 | Optimizing with increasing data returns a result | `optimize_with_increasing_data` | as C38 plus exact `f64` for the stop test; counterexamples | partial |
| C41 | Predicted byte savings are realised | `add_byte` | re-segmentation of the optimal segmentation | proved |
| C42 | Predicted pair savings are realised | `add_token_bpe` | merge of disjoint occurrences of the pair | proved |
| C43 | Merging statistics is order-independent | `TokenStats::merge` | commutative monoid | proved |
| C44 | Character counting | `count_chars` | line induction; witnesses | partial |
| C45 | Preloaded samples are valid pieces of the file | `PreloadedSampler` | C28 per random position | proved |
| C46 | Tokenizing a sampled file scans all of it | sampler + batch | C05, C07, C24 combined | proved |
| C47 | The optimize command writes a valid result | `main`/`optimize` command | composition | proved |
| C48 | Saved token sets can be used again | `convert` command, `--input-tokens` | C17 lifted to commands; witnesses | partial |
| C49 | The optimizer uses its whole budget | when `optimization_step` returns None | `Stuck` characterisation | proved |
| C50 | Optimizing an optimized set changes nothing | the same | `Stuck` does not depend on numbering, order or threads | proved |
| C51 | 64-bit counters never overflow | tokenizer and batch with 64-bit addition (Model/Machine) | bounds on all counters, then step-by-step equality | proved |
| C52 | Saved files are JSON and are read back in any layout | `serde_json` writer and reader (Model/JsonRead), files | relation `JsonText` (RFC 8259 grammar, Spec/JsonText), writer in, reader complete | proved |
| C53 | An incomplete file is never read as a token set | the same on prefixes | every proper prefix of a written object leaves the reader in need of input | proved |
| C54 | pretty.py does not change token sets | `pretty.py` (Model/Pretty) | structural induction on the value | proved |
| C55 | Down-sampling takes about the requested number of bytes | `sample_from_file` with `f64` | error bounds of rounding | proved |
| C56 | Cutting text into chunks damages only the characters at the cuts | `String::from_utf8_lossy` | scanner invariant | proved |
| C57 | Killing a run leaves no file that is mistaken for a result | file system with killing at every point (Model/Disk), unfinished executions (Model/Running) | C53 + invariant on files written | proved |
| C58 | Commands touch only the files they are meant to write | all commands on the file system | frame property | proved |
| C59 | The result of optimize is on disk and usable | the same | C47 on disk | proved |
| C60 | process writes the processed text and leaves the data alone | `process` command on bytes | C21, C22 on disk | proved |
| C61 | A loaded token set is what the file lists | `from_json` on any value | equivalence with Spec/Loaded, function by function | proved |
| C62 | The README's decoder recovers the text | README decoder (Spec/Readme) | word by word | proved |
| C63 | A word is written the same everywhere | `process` | context lemma of the grammar | proved |
| C64 | Random samples of a file | `FileSampler` with `max_samples` | for every sequence of random numbers and reads | proved |
| C65 | The optimizer's 64-bit arithmetic never overflows | the optimizer with u64/i64 arithmetic (Model/MachineOpt) | bounds, then equality of outcome sets | proved |
| C66 | Optimizing is reproducible | the optimizer with a fixed sort function (Model/Repeat) | one result per program, whatever the environment | proved |
| C67 | The byteshuff byte optimizer takes the cheapest of its candidates | `HuffOptimizer::optimize_bytes` | candidate costs compared; witness for the doc comment | proved |
| C68 | Exactly which files are token sets | serde_json reader + `from_json` on any byte string | soundness (Proofs/JsonSound) and completeness (Proofs/JsonExact) of the reader for the grammar, then C61 | proved |
| C69 | Every long token earns its place | the whole optimizer | from the fixpoint condition `Stuck`, C34, C41, C42; transport of the segmentation to the set without an unused token | proved |
| C70 | The most frequent bytes have the tokens | the whole optimizer | from `Stuck.bytes`, the realised byte saving and C30 | proved |
| C71 | The optimizer invents no tokens | the whole optimizer | loop invariant | proved |
| C72 | Cutting the data into samples costs little | `tokenize_file` on any samples | cut the piece that spans the cut into bytes; C05; join of segmentations | proved |
| C73 | Limits of the compression | `tokenize_file` on any samples | C05 and induction on segmentations | proved |
| C74 | The whole pipeline loses nothing | `process_file`, samplers, `tokenize_file` in a row | C16 (lossless families), C05, C07, C46, C62; ASCII is preserved by processing | proved |
| C75 | The lines the optimizer prints tell what was exchanged | `show_bytes`, `Display for Token`, `show_tokenset_diff`, Rust's `Debug` of strings and byte slices | prefix-freeness of the printed forms; uniqueness of sorted lists | proved |
| C76 | The count of a pair is the count of its text | tokenizer statistics | the last piece of the chosen segmentation is the longest, applied to both occurrences; texts determine tokens | proved |
| C77 | Files are overwritten only by better sets | the loop of `optimize_tokenset_impl` with the clock | order invariant of the loop (C36 per round), transitivity; unfinished runs by completion (C37) | proved |
| C78 | Success means that the output is complete | `process_file` with the `BufWriter` of the standard library and `std::fs::write`, on a device that writes pieces and may fail (Model/Writing) | invariant: file ++ buffer is a beginning of the output and the buffer holds at most 8192 bytes | partial |
| C79 | First-generation tokenizer: cheapest segmentation, right counts | `tokens.rs` (without JSON), `tokenizer.rs`, `stats.rs` (Model/Old) | invariants of the set and of the suffix automaton; the chain of suffix links visits all tokens that end at a position, longest first; dynamic programming; traceback | proved |
| C80 | First-generation tokenizer: threads do not change the result | `tokenize_file` of `tokenizer.rs`, seen from outside (Model/Old) | statistics as sums over samples; permutation of sums; extensionality | proved |
| C81 | A word costs one token | `process` and `tokenize_file` | a segmentation with that many tokens by induction on the words; C22, C05 | proved |
| C82 | The command line means what it says | `Args`, `Command`, `main` and the part of clap 4 they use (Model/Args) | parser loop = relation of Spec/CommandLine: induction on the arguments one way, on the settings the other | proved |
| C83 | A failing read is never taken for the end of the data | `BufReader`, `read_until`, `lines`, `read_to_end` of the standard library and the readers of the program, on a device that delivers pieces and may fail (Model/Reading) | induction on the reads: buffer ++ rest of the file is what has not been delivered; C24, C78 | proved |
| C84 | convert and optimize work on the whole processed text, or fail | `maybe_process_file`, `load_save_tokens`, `optimize` with a temporary file on a device that may fail (Model/Writing) | reduction to C78 for the temporary file and to C47, C48 for the commands with that file as processed data | partial |
| C85 | The commands on failing devices: a reported success is one, and nothing half-done is readable | the commands of Model/Disk with the readers and writers of Model/Reading and Model/Writing (Model/Faults) | each step that goes well on a failing device is a step on a perfect one (C83, C78); failed writes leave what a killed program leaves, so that C57, C37 (unfinished runs) apply | proved |
| C86 | The character tokenizer reports one cheapest cut of every sample | `chars/tokens.rs`, `chars/token_stats.rs`, `chars/tokenizer.rs` (Model/Chars) | invariants of the set and of the suffix automaton over characters; dynamic programming over character boundaries; traceback | proved |
| C87 | The character tokenizer accepts exactly UTF-8 | as C86 | the decoder accepts exactly UTF-8 (Model/Utf8) | proved |
| C88 | Codes of byteshuff are short for frequent bytes | `optimize_splits`, `optimize_ext_encoding` (Model/OptimizeBytes) | in a list where neighbours were merged greedily no group outweighs two neighbours together, so a split at the heaviest character leaves at most 3/4 of the weight; induction on the depth | proved |
| C89 | Texts written with a character-based set can be read back | `chars/optimizer.rs` (Model/CharsOptimizer) | invariant of the loop over the top splits; tokens with a text start a group, ext tokens continue it | proved |
| C90 | The character optimizer takes the best number of ext tokens, with short codes | as C89 | loop invariants; C88 for characters | proved |
| C91 | The loop of the character optimizer: most frequent pairs, always fewer tokens, exact size | as C89 | C86 for every round; a pair that is already a token would contradict that the cut is cheapest; replacing the pair in the old cut bounds the new total | proved |
| C92 | First-generation optimizer: cached statistics are right | `TokenizerCache` of optimizer.rs (Model/OldOptimizer): programs that ask, runs that answer from the cache or by any run of `tokenize_file` | invariant of the cache: every entry was computed for a set with the same sorted texts; weakest preconditions, sound and total for all runs; C79, C80 for the computed ones | partial |
| C93 | First-generation optimizer: an exchange of tokens makes the samples cheaper | `add_token`, `remove_and_add_token` (Model/OldOptimizer) | loop invariant over the tokens tried, in the order of the sort key; maximum loops | proved |
| C94 | First-generation optimizer: the most valuable texts are added | `add_tokens` (Model/OldOptimizer) | the order is sorted, so what is left out is worth no more; two neighbours of a cheapest way are never a token | proved |
| C95 | First-generation optimizer: optimize_bpe reaches the size and never gets worse | `add_tokens_bpe`, `optimize_bpe` (Model/OldOptimizer) | the cost decreases in each exchange, which bounds the rounds | proved |
| C96 | First-generation optimizer: the most used bytes get tokens | `optimize_byte_tokens` (Model/OldOptimizer) | the two sorted lists cross at one point; a bound on the cost by rewriting bytes | proved |
| C97 | First-generation optimizer: every saved set is better than the one before | `optimize_token_set`, `save_token_set` (Model/OldOptimizer) | invariant of the outer loop: the last saved set is the best | proved |
| C98 | First-generation optimizer: optimize_token_set ends | as C97; the clock is a question | measure: cost on the middle samples; counterexamples by runs that the calculus of possible runs constructs | partial |
| C99 | First-generation optimizer: block sizes and the set to start with | `optimize_all`, `load_prev_token_set` (Model/OldAll) | induction on the number | proved |
| C100 | First-generation token sets: saving and loading | `to_json`, `from_json` of tokens.rs and stats.rs (Model/OldAll) | inversion of the writer; mandatory tokens are added again and ignored | partial |
| C101 | First-generation optimizer: what optimize_all leaves on disk | `optimize_all` on a directory (Model/OldAll) | induction over the sizes with C97, C99, C100 | proved |
| C102 | First-generation optimizer: _add_and_remove_token exchanges one token and pays off | `_add_and_remove_token` (Model/OldRemove) | invariant of the loop: the set is the one with the new token, or without one or more important tokens; costs only grow when tokens are removed | partial |
| C103 | The file of the character-based optimizer describes its result completely | `to_json`, `tokens_to_json`, `encodings_to_json`, `to_string_pretty` (Model/CharsFile) | the loop inserts each key once; tokens of a run have different texts and ext tokens are numbered, so numbers are recovered; the texts denote their values and are read back | proved |
| C104 | Parallel tokenization holds only a few samples in memory and loses none on the way | `tokenize_file`, `FileIterator::next` with reading and sending as separate steps (Model/Lazy) | invariant: samples in the queue, in the hand of main and in the hands of the workers; simulation in both directions with Model/Batch; a run that fills the queue | proved |
| C105 | A sampler that fails in the middle ends the parallel run with a panic, never with a hang or with statistics | as C104, with an iterator that panics (Model/Lazy) | the channel is closed by unwinding; measure for finiteness; no stuck state other than the panic | proved |
| C106 | The work of tokenizing a text is linear in its length | `process_slice` with a counter in each loop (Model/Work) | the counted program computes the same; the inner loop visits exactly the pieces that end at the byte (chain of suffix links); pieces that end at the same place have different lengths | proved |
| C107 | The data is read only as often as needed | `TokenizerCache` and the optimizer with a counter of `tokenize_file` (Model/Passes) | invariant: the keys in the cache are those of the calls; a budget calculus on programs (`Prog.pays`) that knows which sets were asked for; C37 for the rounds | proved |
| C108 | The order in which a set lists its tokens does not matter | `sort`, `TokenizerCache`, the tokenizer and the optimizer as before | the tokenizer cuts the same text in the same places with the renumbered set (`LongestLast` is carried over piece by piece); sorted sets are equal (C12), so the cache sees no difference; a simulation of programs that ask about the same sets (`Sim`) for the optimizer | proved |
| C109 | How large a processed text can become | `process`, `process_file` as before; sizes in bytes of UTF-8 | induction on the documented rewriting of the items of a text (C22, C21); two words have a character between them | proved |
| C110 | A local change of the data changes the token count by little | the tokenizer as before | from C72: cut out the changed part, and join again | proved |
| C111 | The optimizer's console output can be replayed | `remove_add_token`, `optimization_step`, `save_tokens`, `optimize_tokenset_impl`, `optimize_tokenset` with their `print!`s (Model/Log) | erasing the output gives the programs of Model/Optimize (`quiet_*`); a weakest-precondition calculus with output gives the possible outputs of a round (`RoundOut`), induction over the loop those of a run (`Story`); lines are told apart by their first characters and read back by C75 | proved |
| C112 | Printed rates belong to the printed sets and do not go down | as C111 | from `Story`; rounding is monotone (`round53_mono`) | proved |
| C113 | Lines of removal attempts are complete and in order | as C111 | from `Story`: the counts of attempts are the numbers of earlier mentions in the output | proved |
| C114 | The files announced on the console are the files written | the commands of main.rs with their `println!`s (Model/MainLog) | the parts of the optimizer that save nothing announce nothing (`Still`); induction over the loops keeps files and announcements equal (`Kept`) | proved |
| C115 | The progress printed with increasing data is truthful | `optimize_with_increasing_data` with its `println!`s (Model/MainLog) | induction over the rounds; the improvement is that of the story of C111 (`optimized_improved`) | proved |
| C116 | The order of the samples does not matter, nor does repeating all of them | the tokenizer, the cache and the optimizer (Model/Batch, Model/Optimize, Model/Repeat) | a simulation between two surroundings (`Twin`, `twin_run`): the functions of the optimizer do not see that all counts are multiplied (`Blind`) | proved |
| C117 | Converting a token set again changes nothing; only the set in an input file matters | the convert and optimize commands on files (Model/Disk), reading and writing JSON | the outcome depends on the input file only through the set read (`exec_convert_congr`); C17 applied to the set without its short sequences | proved |
| C118 | What count-chars prints | `count_chars` with every `println!` (`Model/CountLog.lean`): the billion progress, the total, the lines of the characters below 256 with their `{:?}` form, the maximum; a panic keeps what was printed before it. | `C118_same_result`: same success or panic as the silent model of C44. `C118_output`: the exact text, in terms of the input text only (`BillionMarks`, `LowChars`, `ReportedMax`), by induction over the lines (`progress_iff`). `C118_progress`: how many progress lines, and the last one. `C118_readable`: the output determines the counts (splitting lemmas for decimal numbers and quoted characters). `C118_bad_file`: only progress of the lines before the first bad one, then the panic. | proved |
| C119 | No token set compresses everything | the tokenizer (Model/Tokenizer) and the byteshuff optimizer (Model/OptimizeBytes) | losslessness (C16) makes the outputs of texts an injective code, counted by padding (`few_lists`), and the byte codes uniquely decodable, so the inequality of Kraft and McMillan (Mathlib) and that of Gibbs apply (`entropy_le_code`); together with C88 | proved |
| C120 | literal_dist_entropy of the first generation | `dist_entropy` (Model/Entropy) over the real numbers | the loop is the sum of `entropyBits` (`entropyLoop_eq`); then `entropy_le_code` | proved |
| C121 | Tokens shown as text outside the program can be told apart | `Display` of chars/tokens.rs and `format_token` (Model/CharsShow) | splitting lemmas for numbers, quoted characters and strings, then for lines (`tokenLines_split`, `entryLines_split`) | proved |
| C122 | Samples are not too small | both samplers (Model/Sampler) and the choice of the sampler in `optimize` (Model/Main) | where a sample ends (`memSlices_spec`, `fileSlices_spec`): the end of the second of two neighbours lies beyond the window of the first, or would have been chosen before; then `few_pieces` by induction, and C72 | proved |
| C123 | An interrupted optimization can be resumed | optimize on files, killed at any moment (Model/Running, Model/Disk) | every set that is saved is one the optimizer can work on (`killed_again`, from the invariant of the loop), saved sets load back (C48), and C59, C38 for the second run | proved |
| C124 | Processing beforehand changes nothing | process, convert and optimize on files (Model/Disk, Model/Running) | the commands differ in `maybe_process_file` only (`SameStart`, `exec_given_convert`), case by case over the outcomes; C60 and C59 for data that is not UTF-8 | proved |
| C125 | The commands are reproducible | convert and optimize on files with a fixed sort and full reads (Model/RepeatMain, Model/Repeat) | C66 for each optimization and C07 for each tokenization, by induction over the rounds (`increasingBy_one`); two-byte file for the deviation | proved |
| C126 | Several runs at the same time | several commands with interleaved system calls on one file system (Model/Together) | an invariant of the histories (`Apart`): a command depends only on the files it reads (`exec_reads`, `running_reads`), calls on other files do not matter (`apply_other`), names by C58 and C19 | proved |
| C127 | Which sizes an optimization writes files for | runs of the optimizer and of the command, files written so far (Model/Running, Model/Disk) | sets written are no smaller than the start (`impl_ahead`, `impl_ok`) in every round of increasing data; a step adds at most one token once all short tokens are there (`wp_step_next`), so a run whose clock always says yes passes every size (`loop_every`) | proved |
| C128 | Several runs that write the same file | several commands with interleaved system calls on one file system, each writing at the position of its own open file (Model/Together) | an invariant of the histories (`Shared`): the run that created the file last has written a beginning of it that is as it should be (`cursor`, `Agree`), and no other run spoils it, since all write the same bytes at the same places (`Weak`, `overlay_get`); the bad history is constructed; a JSON object followed by more than white space is refused (`parse_more`) | proved |
| C129 | Looking at the files of a run while it works | as C126, with only one run protected: the others may do anything to other files and may read its files | an invariant of the histories (`Alone`): the calls that the run has done are a prefix of the calls of an outcome it has alone, and its files are what these calls leave; then C57/C123 about a run that is stopped at any moment apply to what another program sees, and C129_convert follows from the reader (a convert that succeeds has read a whole set) | proved |
| C130 | Comparing token sets | tokenize_file on the same samples with two sets; `Writes`, `Covers` (Spec/Compare) say what a set can write with how many tokens | every optimal segmentation with one set is rewritten piece by piece into a segmentation with the other (`Dominates`, `without_spells`), whose length is counted; the optimal one is not longer; summed over the samples (`workSum`) | proved |
| C131 | A run that is stopped is the beginning of a complete one | Running (what a command has done so far) and Exec (complete executions), two separate models of the same code | one direction: every partial execution of the optimizer and of the rounds can be continued to an end (C37_no_dead_end, C40_terminates); the other: induction on the complete execution, cutting it at a given list of files | proved |
| C132 | The counters agree with each other | no new model: the statistics of tokenize_file | the equations are proved for one list of pieces by induction on it, and added up over the samples; the threads by C07 | proved |
| C133 | The saved file and the tokens are enough | no new model: to_json, from_json, read_token_set, maybe_process_file, the samplers and tokenize_file together | from_json of to_json puts default sequences before the saved ones, so the set can be had back from the result also where the program itself cannot use it (bits types); the decoder takes any set with that file | proved |
| C134 | Converting the result of optimize reports the same numbers, and converting again changes nothing | no new model: ExecBy of optimize and convert (full reads), the stats cache, the samplers, to_json and from_json together | the final statistics are shown to be those of the whole file (induction over the rounds of the increasing loop; Fresh for the cache; one sample for small text), the flag does not enter the segmentation, and the JSON of the statistics differs in one member only | proved |
| C135 | The numbers in a saved file are right | no new model: Exec of convert and optimize, to_json of the statistics, the reader | Spec/Reported.lean says what the members must be; the statistics are those of one fresh run over samples of the whole data (C05, C07, C40, Fresh for the cache), the JSON of the statistics has these members (first of their name), and what is written is read back (C52) | proved |
| C136 | First-generation optimizer: names of the files | Model/OldNames.lean: Display of LiteralEncoding, the name of the file, the path written (Path::join) and the path looked for | digits end at the first underscore, the encoding begins after the last one; then cancellation | proved |
| C137 | The reported compression is real | no new model: Reported (C135) and the decoder of a file (C133) | the reported total is the sum of the lengths of optimal segmentations, so it equals the total of a fresh run, which counts a list of tokens that the decoder takes back | proved |
| C138 | A text comes back from the file of a run | no new model: Exec, DataRead, the decoder of the README | the data comes back by C135 and the decoder of the file; the text by the decoder of the README; ASCII slices are not changed by from_utf8_lossy | proved |


"partial" means that the code violates the full claim. In each such case the theorems contain (a) the negation of the full
claim, for a concrete or for every input of a class, and (b) the strongest part that holds, with suffix `_partial`
(or an iff that gives the exact condition). See the notes in `MANIFEST.json`.

Not expressible, hence not claimed: time and memory as measured (rounds of loops, passes over the data and samples in flight are: C104, C106, C107).

## What is modelled

| code | model |
|---|---|
| `tokenset.rs` | Model/TokenSet, Model/Json, Model/Show |
| `stats2.rs` | Model/Stats |
| `tokenizer2.rs` | Model/Tokenizer, Model/Machine, Model/Work |
| `batch_tokenize.rs` | Model/Batch, Model/Machine, Model/Lazy, Model/Cache (`TokenizerCache`) |
| `processing.rs` | Model/Processing |
| `input/*.rs` | Model/Sampler, Model/Utf8, Model/Float |
| `optimize_bytes.rs` | Model/OptimizeBytes, Model/MachineOpt |
| `optimize.rs` | Model/Optimize, Model/MachineOpt, Model/Repeat, Model/Passes |
| `main.rs` | Model/Main, Model/Disk, Model/Args, Model/MainLog, Model/CountLog |
| `BufWriter`, `write_all`, `std::fs::write` as used, with failing writes | Model/Writing |
| `BufReader`, `read_until`, `read_to_end` as used, with short and failing reads | Model/Reading |
| `tokens.rs`, `tokenizer.rs`, `stats.rs`, `optimizer.rs` (not declared in main.rs) | Model/Old, Model/OldOptimizer, Model/OldAll, Model/OldRemove, Model/OldNames, Model/Entropy |
| `chars/*.rs` (not declared in main.rs) | Model/Chars, Model/CharsOptimizer, Model/CharsFile, Model/CharsShow |
| `pretty.py` | Model/Pretty |
| `serde_json::{from_str, to_string, to_string_pretty}` as used | Model/JsonRead, Model/Json |
| `String::from_utf8`, `from_utf8_lossy`, `BufRead::lines`, `Read::read`, `HashMap`, sorts, `mpsc`, `thread::scope` | as needed, see the comments |



## What is not modelled

* `println!` output other than that of `count-chars` (C44, C118), the lines of `show_tokenset_diff` (C75), the output of the optimizer (C111–C113) and of the commands (C114–C115; without file names).
* What `clap` prints for help and errors (the parsing itself is in Model/Args, C82).
* Failing I/O other than "the file is missing / cannot be created" (Model/Disk), failing writes (Model/Writing, C78) and failing
  reads (Model/Reading, C83). In the theorems about whole commands reading an open file does not fail, except in C85 (Model/Faults).
* Allocation failure, stack overflow (the JSON reader's depth limit of 128 is modelled), `usize` array indices near 2^64.
* The JSON text that the crate `json` prints and parses for
  `tokens.rs` and `stats.rs` (the value is modelled).
* The decimal text of floats in written statistics is any text of the right shape (`RatioText`); nothing reads it back.

## Deviations of the code from what a user expects, found while proving

* C09: a panic in one worker thread (empty sample) blocks `tokenize_file` for ever.
* C17/C48: the paragraph flag is written as `split_paragraphs` and read as `split_paragraph`; a saved bits set loads with duplicate
  sequences and is then rejected by the tokenizer, so `convert` and `optimize --input-tokens` panic (also on the shipped files).
* C20: texts with marker characters, and U+0130, are not recovered. C21: CR LF line ends are lost.
* C23: chunk size 0 never ends. C25: samplers cut characters: the in-memory one replaces them, the file one panics.
* C27: the first paragraph is never sampled (0/0 is NaN); a one-paragraph file gives no data.
* C35: when every pair seen spans a blank line, the last one is added nevertheless.
* C38: a pretrained byteshuff set can be replaced by a worse one.
* C39: bits types panic for every size above n_ext + 256 from scratch.
* C40: `--min-data-size` panics on files of at most 2^24+1 bytes; size 0 never ends.
* C44: `count-chars` reports NUL as the maximum of a Latin-1 text; characters from 256 up are not printed.
* C117: converting a set with token sequences of fewer than two tokens writes a file without them; the file converted from that one is the same.
* C78: `process` may report success although the end of its output could not be written.
* C84: for the same reason `convert` and `optimize` may work on a shortened text, or on nothing, if the temporary directory is full, and report success.
* C57: writing a result is not atomic. C60: `process` onto its own input destroys the data.
* C64: the random sampler never takes the last byte and panics on cut characters and short files.
* C67: `optimize_splits` is not an optimal split, contrary to its doc comment.
* C86: in the character-based module a character below U+0100 without an encoding costs nothing.
* C92: the cache of the first-generation optimizer confuses sets with the byte 0 in a token, and returns counts numbered in the order of
  another set. C93, C95: it panics or never ends when all samples are tokens. C96: it panics with hex digits as literals.
  C98: its last assertion fails on ties, and with a slow clock it may exchange two sets for ever. C99, C101: `min_tokens` 0 never ends.
  C100: `Dist2` and `Dist4` are loaded as `Dist8`. C102: `_add_and_remove_token` does not put an important token back, so it gives up after the
  first one; it divides by zero without samples. C136: with an empty directory name it looks for saved sets in the root directory.
* C90, C91: the character-based optimizer panics for fewer than 3 tokens, and when no two neighbouring tokens are left.

## Trusted base

* Lean 4.33.0's kernel. No axioms of our own; no compiled evaluation. The theorems in `MANIFEST.json` depend on at most `propext`,
  `Classical.choice`, `Quot.sound` (most on all three; about 20 only on `propext` and `Quot.sound`;
  `C14_add_empty_panics` on none).
* Mathlib modules imported one by one (library lemmas, kernel checked).
* The reading of the Rust source, of the Rust standard library, of `serde_json` and of Python's `json` given in the comments of the model.
  Evidence for this reading: `conformance/README.md`.
* The specifications in `Spec/` and the statements in `Props/` say what the English says.
