# Conformance of the model with the code

The theorems are about the Lean model.  These scripts are not proofs; they are evidence that the model
is the program.  (`/repo` cannot be built in the sandbox, so there is no run of the Rust program to
compare with; what is compared with is data the program left behind, the expectations of its own unit
tests, and a second, independent transliteration of the Rust source.)

| script | what it compares | result |
|---|---|---|
| `lean/proc.lean.txt` | model of `process` on `/repo/data/pride.txt` against the `/repo/data/pride_caps_words.txt` that the Rust program wrote | identical, 720 KB |
| `lean/unit.lean.txt` | the model evaluated on every unit test of `/repo/src` that is compiled (processing, tokenizer2, tokenset) | all pass |
| `lean/tok.lean.txt` | the JSON reader and the pretty printer on the shipped `/repo/tokens/*.json` | every file is read; printing the value read gives back the file byte for byte; `bytes*` sets are accepted by the tokenizer; the `bits*` sets load with repeated sequences and are rejected (the bug of C17/C48) |
| `lean/opt.lean.txt`, `fuzz.py`, `port.py` | tokenizer statistics (`tok`), byte optimizers (`bytes`), whole optimizations (`opt`) against `port.py`, a line-by-line Python transliteration of the Rust | 60 + 60 + 15 random cases, identical |
| `lean/in.lean.txt`, `fuzz.py`, `port.py` | samplers, UTF-8 repair, the sampling loop with floating point (Python's doubles against `F64`) | 5000 + 400 random cases, identical |

The Lean scripts are kept as text so that the Lake project contains only the model and proofs.
To run one: copy it to `/tmp/x.lean` and `cd /verif/lean && lake env lean --run /tmp/x.lean`
(`opt` and `in` read the cases of `python3 fuzz.py gen SEED KIND COUNT` from the standard input;
`python3 fuzz.py expect` gives the answers of the port).
