import Verif.Model.Writing
import Verif.Model.JsonRead

/-!
Reading from a device that delivers what it likes and may fail at any moment.

A `read` of the system returns any positive number of bytes up to the number asked for and up to the end
of the file, or nothing at the end, or an error.  (`ErrorKind::Interrupted` is retried by all readers of the
standard library used here, so that it leaves no trace; `FileSampler` does not retry, for it this is a
failure like any other.)
-/

namespace Tokens
namespace Reading
open Input Main

/-- `Read::read_to_end` of the standard library, as used by `std::fs::read` (src/input/memory_sampler.rs:14)
and, byte by byte through a `BufReader`, by `serde_json::from_reader` (src/main.rs:111): what is left in the
file, what has been read, and whether the end was reached without a failure. -/
inductive Pull : Bytes → Bytes → Bool → Prop where
  /-- the end: `read` returns `Ok(0)` -/
  | done : Pull [] [] true
  | some {rest n got ok} (hn : 0 < n) (hle : n ≤ rest.length) (h : Pull (rest.drop n) got ok) :
      Pull rest (rest.take n ++ got) ok
  | fail {rest} : Pull rest [] false

/-- `BufRead::read_until(10, ..)` of the standard library on a `BufReader`.  `ReadUntil buf rest got buf' rest'
ok`: the buffer and the rest of the file before; the bytes appended to the argument; the buffer and the rest
after; whether the result is `Ok`. -/
inductive ReadUntil : Bytes → Bytes → Bytes → Bytes → Bytes → Bool → Prop where
  /-- there is a newline in the buffer -/
  | found {pre post rest} (h : (10 : UInt8) ∉ pre) :
      ReadUntil (pre ++ 10 :: post) rest (pre ++ [10]) post rest true
  /-- there is none: the buffer is used up and filled again, with at most its size (8192) -/
  | fill {buf rest n got buf' rest' ok} (h : (10 : UInt8) ∉ buf) (hn : 0 < n) (hle : n ≤ rest.length)
      (hcap : n ≤ Writing.capacity) (hr : ReadUntil (rest.take n) (rest.drop n) got buf' rest' ok) :
      ReadUntil buf rest (buf ++ got) buf' rest' ok
  /-- there is none, and the file is at its end -/
  | eof {buf} (h : (10 : UInt8) ∉ buf) : ReadUntil buf [] buf [] [] true
  /-- there is none, and the system reports an error -/
  | fail {buf rest} (h : (10 : UInt8) ∉ buf) : ReadUntil buf rest buf [] rest false

/-- The loops that read line after line until nothing comes: `BufRead::lines` (src/processing.rs:135),
`read_line` (src/main.rs:64-70), `read_until` (src/input/memory_sampler.rs:33).  `ReadLines buf rest ls ok`: the
lines that arrive, and whether the end was reached without a failure. -/
inductive ReadLines : Bytes → Bytes → List Bytes → Bool → Prop where
  /-- `Ok(0)` -/
  | done {buf rest buf' rest'} (h : ReadUntil buf rest [] buf' rest' true) : ReadLines buf rest [] true
  /-- an error: what has been read of the line is not used -/
  | fail {buf rest got buf' rest'} (h : ReadUntil buf rest got buf' rest' false) : ReadLines buf rest [] false
  | line {buf rest got buf' rest' ls ok} (hne : got ≠ []) (h : ReadUntil buf rest got buf' rest' true)
      (hl : ReadLines buf' rest' ls ok) : ReadLines buf rest (got :: ls) ok

/-- src/processing.rs:131-143 `process_file` with `unwrap` (src/main.rs:40 and 51), from a device that may fail to
one that may fail (see `Writing.ProcessTo`): the last argument tells whether all reads went well.  `line?` ends
the function at a failing read; the `BufWriter` is dropped. -/
inductive Process (db : CharTables) (input : Bytes) : Bytes → R Unit → Bool → Prop where
  /-- the reads go well as far as they are made -/
  | run {ls s r out} (hl : ReadLines [] input ls true) (h : Writing.Loop db ls ⟨[], []⟩ s r)
      (hd : Writing.Dropped s out) : Process db input out r true
  /-- a read fails after lines that have been processed without error -/
  | fail {ls s out} (hl : ReadLines [] input ls false) (h : Writing.Loop db ls ⟨[], []⟩ s (.ok ()))
      (hd : Writing.Dropped s out) : Process db input out (.error .unwrapNone) false

/-- src/main.rs:54-103 `count_chars`: src/main.rs:69 panics at a failing read. -/
inductive Count (order : List Nat → List Nat) (input : Bytes) : R CharReport → Bool → Prop where
  | run {ls} (hl : ReadLines [] input ls true) :
      Count order input (do
        let s ← countLines ⟨0, List.replicate 256 0, []⟩ ls
        .ok {
          total := s.total
          printed := (s.low.zipIdx.filter (fun e => decide (e.1 > 0))).map (fun e => (e.2, e.1))
          maxChar := maxKey (order (s.counts.map Prod.fst)) }) true
  | fail {ls} (hl : ReadLines [] input ls false) :
      Count order input (do
        let _ ← countLines ⟨0, List.replicate 256 0, []⟩ ls
        .error .panic) false

/-- src/input/memory_sampler.rs:22-54 `sample_from_file`: `unwrap` at a failing read. -/
inductive Sample (input : Bytes) (size chunkSize : Nat) : R MemorySampler → Bool → Prop where
  | run {ls} (hl : ReadLines [] input ls true) :
      Sample input size chunkSize (do
        let data ← sampleLoop (lessShare size input.length) ls [] [] 0
        .ok { data := data, chunkSize := chunkSize }) true
  | fail {ls} (hl : ReadLines [] input ls false) :
      Sample input size chunkSize (do
        let _ ← sampleLoop (lessShare size input.length) ls [] [] 0
        .error .unwrapNone) false

/-- src/input/memory_sampler.rs:13-16 `from_file`. -/
inductive FromFile (input : Bytes) (chunkSize : Nat) : R MemorySampler → Bool → Prop where
  | run {got} (h : Pull input got true) : FromFile input chunkSize (.ok ⟨got, chunkSize⟩) true
  | fail {got} (h : Pull input got false) : FromFile input chunkSize (.error .unwrapNone) false

/-- src/main.rs:105-113 `read_token_set`: the value.  `from_reader` reads to the end of the file, or stops at
the first error in the text. -/
inductive FromReader (input : Bytes) : R Json → Bool → Prop where
  | run {got} (h : Pull input got true) : FromReader input (unwrapR (JsonRead.parseBytes got)) true
  | fail {got} (h : Pull input got false) : FromReader input (.error .unwrapNone) false

/-- src/input/file_sampler.rs:97-113: the iterator of `FileSampler`, as `Input.fileSlices`; the `i`-th `read`
fails if `reads i` is `none`. -/
def fileSlices (file : Bytes) (sampleSize : Nat) (reads : Nat → Option Nat) : Nat → Nat → Nat → R (List Bytes)
  | 0, _, _ => .error .fuel
  | f + 1, i, offset =>
    match reads i with
    | none => .error .unwrapNone
    | some short => do
      match ← fileNext file sampleSize offset short with
      | none => .ok []
      | some (slice, offset') => do
        let rest ← fileSlices file sampleSize reads f (i + 1) offset'
        .ok (slice :: rest)

/-- src/input/file_sampler.rs:18-61, as `Input.fileSampler`. -/
def fileSampler (file : Bytes) (sampleSize : Nat) (reads : Nat → Option Nat) : R SamplerData := do
  let slices ← fileSlices file sampleSize reads (file.length + 1) 0 0
  let samples ← fromVecs slices
  .ok { samples := samples, totalSize := file.length }

end Reading
end Tokens
