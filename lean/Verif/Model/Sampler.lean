import Verif.Model.Utf8
import Verif.Model.Batch
import Verif.Model.Float

/-!
Model of `/repo/src/input/*.rs`: the samplers.  A file is its contents as a byte string; what the
operating system may decide (how many bytes one `read` call returns) and random numbers are parameters;
floating point comparisons are those of `Verif/Model/Float.lean`.
-/

namespace Tokens
namespace Input

/-- src/input/util.rs:1-3 `is_char_start`. -/
def isCharStart (b : UInt8) : Bool := decide (b < 128) || decide (b ≥ 192)

/-- src/input/util.rs:6-9: the first loop of `extract_valid_utf8_slice`, as the number of rounds. -/
def skipCont : Bytes → Nat
  | [] => 0
  | b :: bs => if isCharStart b then 0 else skipCont bs + 1

/-- src/input/util.rs:13-15: the second loop,
`while end > start && !is_char_start(data[end]) { end -= 1 }`. -/
def backToStart (data : Bytes) (start : Nat) : Nat → R Nat
  | 0 => .ok 0
  | e + 1 =>
    if e + 1 > start then do
      let b ← getR data (e + 1)
      if isCharStart b then .ok (e + 1) else backToStart data start e
    else .ok (e + 1)

/-- `&data[start..end]`. -/
def sliceR (data : Bytes) (start end_ : Nat) : R Bytes :=
  if start ≤ end_ ∧ end_ ≤ data.length then .ok ((data.take end_).drop start) else .error .index

/-- src/input/util.rs:5-18 `extract_valid_utf8_slice`. -/
def extractValidUtf8Slice (data : Bytes) : R Bytes := do
  let start := skipCont data
  let last ← subR data.length 1
  let b ← getR data last
  let end_ ← if b ≥ 128 then backToStart data start last else .ok data.length
  sliceR data start end_

/-- src/input/util.rs:22-24: the loop of `find_paragraph_end` at `pos`, followed by line 26; the
second index is only evaluated when the first test fails. -/
def paragraphLoop (data : Bytes) (end_ : Nat) : Nat → R Nat
  | 0 => .ok end_
  | 1 => .ok end_
  | pos + 2 => do
    let a ← getR data (pos + 1)
    if a ≠ 10 then paragraphLoop data end_ (pos + 1)
    else do
      let b ← getR data pos
      if b ≠ 10 then paragraphLoop data end_ (pos + 1) else .ok (pos + 2)

/-- src/input/util.rs:20-27 `find_paragraph_end`. -/
def findParagraphEnd (data : Bytes) (end_ : Nat) : R Nat := paragraphLoop data end_ end_

/-- src/input/sample.rs:9-11 `Sample::from_vec`: the bytes of the sample. -/
def fromVec (data : Bytes) : R Bytes := if validUtf8 data then .ok data else .error .unwrapNone

/-- src/input/sample.rs:13-18 `Sample::from_bytes`: the bytes of the sample (borrowed or owned). -/
def fromBytes (data : Bytes) : Bytes := fromUtf8Lossy data

/-! ### MemorySampler -/

/-- src/input/memory_sampler.rs:8-11 `struct MemorySampler`. -/
structure MemorySampler where
  data : Bytes
  chunkSize : Nat

/-- src/input/memory_sampler.rs:87-100 `MemoryIterator::next`, up to `Sample::from_bytes`: the raw
slice and the new position. -/
def memNext (m : MemorySampler) (position : Nat) : R (Option (Bytes × Nat)) :=
  if position < m.data.length then do
    let start := position
    let position := min (start + m.chunkSize) m.data.length
    let paragraphEnd ← findParagraphEnd m.data position
    let position := if position < m.data.length ∧ paragraphEnd > start then paragraphEnd else position
    let slice ← sliceR m.data start position
    .ok (some (slice, position))
  else .ok none

/-- Iterating from `position` until `next` returns `None`: the raw slices.  The first argument bounds
the number of calls. -/
def memSlices (m : MemorySampler) : Nat → Nat → R (List Bytes)
  | 0, _ => .error .fuel
  | f + 1, position => do
    match ← memNext m position with
    | none => .ok []
    | some (slice, position') => do
      let rest ← memSlices m f position'
      .ok (slice :: rest)

/-- src/input/memory_sampler.rs:64-77: the sampler as seen by the tokenizer (`iter` starts at 0;
`total_size` is the length of the data). -/
def memorySampler (m : MemorySampler) : R SamplerData := do
  let slices ← memSlices m (m.data.length + 1) 0
  .ok { samples := slices.map fromBytes, totalSize := m.data.length }

/-- `BufRead::read_until(10, ..)` called until it returns 0: the lines with their newlines. -/
def splitLines : Bytes → List Bytes
  | [] => []
  | b :: bs =>
    if b = 10 then [10] :: splitLines bs
    else match splitLines bs with
      | [] => [[b]]
      | l :: ls => (b :: l) :: ls

/-- `paragraph.ends_with(&[10, 10])`. -/
def endsBlank (p : Bytes) : Bool := decide ([10, 10] <:+ p)

/-- `d as f64 / (r as f64) < target_share` with `target_share = size as f64 / file_size as f64`
(src/input/memory_sampler.rs:24, 37 and 49). -/
def lessShare (size fileSize d r : Nat) : Bool :=
  ((F64.ofNat d).div (F64.ofNat r)).lt ((F64.ofNat size).div (F64.ofNat fileSize))

/-- src/input/memory_sampler.rs:33-51: the loop of `sample_from_file` and the final test, over the
lines of the file.  `less d r` is the value of `d as f64 / (r as f64) < target_share`. -/
def sampleLoop (less : Nat → Nat → Bool) : List Bytes → Bytes → Bytes → Nat → R Bytes
  | [], data, paragraph, readBytes =>
    .ok (if less data.length readBytes then data ++ paragraph else data)
  | buffer :: rest, data, paragraph, readBytes => do
    let b0 ← getR buffer 0
    if b0 ≠ 10 ∧ endsBlank paragraph then
      let data' := if less data.length readBytes then data ++ paragraph else data
      sampleLoop less rest data' buffer (readBytes + paragraph.length)
    else
      sampleLoop less rest data (paragraph ++ buffer) readBytes

/-- src/input/memory_sampler.rs:22-54 `sample_from_file`. -/
def sampleFromFile (file : Bytes) (size chunkSize : Nat) : R MemorySampler := do
  let data ← sampleLoop (lessShare size file.length) (splitLines file) [] [] 0
  .ok { data := data, chunkSize := chunkSize }

/-! ### FileSampler -/

/-- One `read` call on a regular file at `offset` with a buffer of `n` bytes: it returns at least one
byte unless the end of the file is reached or the buffer is empty; `short` is an upper bound chosen
by the operating system, and counts as at least 1. -/
def readAt (file : Bytes) (offset n short : Nat) : Bytes :=
  ((file.drop offset).take n).take (max 1 short)

/-- src/input/file_sampler.rs:97-113: `FileIterator::next` with `samples_left == None`, up to
`Sample::from_vec`: the buffer taken and the new file offset. -/
def fileNext (file : Bytes) (sampleSize offset short : Nat) : R (Option (Bytes × Nat)) :=
  let buffer := readAt file offset sampleSize short
  let readBytes := buffer.length
  if readBytes = 0 then .ok none
  else if readBytes < sampleSize then .ok (some (buffer, offset + readBytes))
  else do
    let end_ ← findParagraphEnd buffer readBytes
    if end_ < readBytes then .ok (some (buffer.take end_, offset + end_))
    else .ok (some (buffer, offset + readBytes))

/-- Iterating until `None`: the buffers taken.  `short i` is the bound of the `i`-th read. -/
def fileSlices (file : Bytes) (sampleSize : Nat) (short : Nat → Nat) : Nat → Nat → Nat → R (List Bytes)
  | 0, _, _ => .error .fuel
  | f + 1, i, offset => do
    match ← fileNext file sampleSize offset (short i) with
    | none => .ok []
    | some (slice, offset') => do
      let rest ← fileSlices file sampleSize short f (i + 1) offset'
      .ok (slice :: rest)

/-- `Sample::from_vec` on every buffer. -/
def fromVecs : List Bytes → R (List Bytes)
  | [] => .ok []
  | b :: bs => do
    let x ← fromVec b
    let xs ← fromVecs bs
    .ok (x :: xs)

/-- src/input/file_sampler.rs:18-61: the sampler with `max_samples == None`, as seen by the
tokenizer. -/
def fileSampler (file : Bytes) (sampleSize : Nat) (short : Nat → Nat) : R SamplerData := do
  let slices ← fileSlices file sampleSize short (file.length + 1) 0 0
  let samples ← fromVecs slices
  .ok { samples := samples, totalSize := file.length }

/-- src/input/file_sampler.rs:79-95: `FileIterator::next` with `Some(samples_left)`: `start` is the
random number drawn (`gen_range(0..max_seek)` panics on an empty range).  Returns the buffer up to
`Sample::from_vec`. -/
def fileRandomNext (file : Bytes) (sampleSize start short : Nat) : R Bytes := do
  let maxSeek ← subR file.length sampleSize
  if maxSeek = 0 then .error .panic
  else do
    let buffer := readAt file (start % maxSeek) sampleSize short
    let end_ ← findParagraphEnd buffer buffer.length
    .ok (buffer.take end_)

/-- src/input/file_sampler.rs:71-95: the iterator with `samples_left = Some(left)`, from its `i`-th call
on, including `Sample::from_vec`; `start i` is what the random number generator gives (reduced to the
range it is asked for) and `short i` bounds the `i`-th read. -/
def fileRandomSamples (file : Bytes) (sampleSize : Nat) (start short : Nat → Nat) : Nat → Nat → R (List Bytes)
  | 0, _ => .ok []
  | left + 1, i => do
    let buffer ← fileRandomNext file sampleSize (start i) (short i)
    let x ← fromVec buffer
    let xs ← fileRandomSamples file sampleSize start short left (i + 1)
    .ok (x :: xs)

/-- src/input/file_sampler.rs:29-61: the sampler with `max_samples == Some(n)`, as seen by the
tokenizer. -/
def fileRandomSampler (file : Bytes) (sampleSize n : Nat) (start short : Nat → Nat) : R SamplerData := do
  let samples ← fileRandomSamples file sampleSize start short n 0
  .ok { samples := samples, totalSize := sampleSize * n }

/-! ### PreloadedSampler -/

/-- src/input/preloaded_sampler.rs:18-24: effective sample size and number of samples. -/
def preloadPlan (dataLen sampleSize maxSamples : Nat) : Nat × Nat :=
  if dataLen ≤ sampleSize then (dataLen, 1)
  else if dataLen ≤ sampleSize * maxSamples then (sampleSize, dataLen / sampleSize)
  else (sampleSize, maxSamples)

/-- src/input/preloaded_sampler.rs:38-52: the chunk number `i`. -/
def preloadChunk (file : Bytes) (sampleSize step i short : Nat) : R Bytes := do
  let chunk := readAt file (i * step) sampleSize short
  let paragraphEnd ← findParagraphEnd chunk chunk.length
  let chunk ← sliceR chunk 0 paragraphEnd
  let valid ← extractValidUtf8Slice chunk
  .ok (if valid.length = chunk.length then chunk else valid)

/-- The loop of src/input/preloaded_sampler.rs:37-53 over `i`. -/
def preloadLoop (file : Bytes) (sampleSize step : Nat) (short : Nat → Nat) :
    List Nat → R (List Bytes)
  | [] => .ok []
  | i :: is => do
    let c ← preloadChunk file sampleSize step i (short i)
    let cs ← preloadLoop file sampleSize step short is
    .ok (c :: cs)

/-- src/input/preloaded_sampler.rs:14-60 `PreloadedSampler::new`: the chunks. -/
def preloaded (file : Bytes) (sampleSize maxSamples : Nat) (short : Nat → Nat) : R (List Bytes) := do
  let (size, n) := preloadPlan file.length sampleSize maxSamples
  -- `data_len / nsamples`
  if n = 0 then .error .panic
  else preloadLoop file size (file.length / n) short (List.range n)

/-- src/input/preloaded_sampler.rs:63-95: the preloaded chunks as a sampler. -/
def preloadedSampler (chunks : List Bytes) : SamplerData :=
  { samples := chunks.map fromBytes, totalSize := (chunks.map (·.length)).sum }

end Input
end Tokens
