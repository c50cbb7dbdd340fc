import Verif.Model.Optimize
import Verif.Model.Sampler
import Verif.Model.Processing

/-!
Model of `/repo/src/main.rs`: the commands.  A file is its contents; file names, what is printed (except
by `count_chars`; see `Verif/Model/MainLog.lean`) and failures of the operating system are left out.  Reading JSON text (`serde_json`)
is left out as well: commands are given the JSON value of the token set file.  Numbers are unbounded.
-/

namespace Tokens
namespace Main
open Batch Optimize Input

/-! ### count_chars -/

/-- `*counts.entry(c).or_insert(0) += 1` on a hash map as a list of entries. -/
def bumpEntry (c : Nat) : List (Nat × Nat) → List (Nat × Nat)
  | [] => [(c, 1)]
  | (k, n) :: rest => if k = c then (k, n + 1) :: rest else (k, n) :: bumpEntry c rest

/-- src/main.rs:58-60: the counters. -/
structure CharCounts where
  total : Nat
  low : List Nat
  counts : List (Nat × Nat)

/-- src/main.rs:78-85: the loop over the characters of a line. -/
def countLine (low : List Nat) (counts : List (Nat × Nat)) :
    Text → R (List Nat × List (Nat × Nat))
  | [] => .ok (low, counts)
  | c :: cs =>
    if c.toNat < 256 then do
      let low ← addAt low c.toNat 1
      countLine low counts cs
    else countLine low (bumpEntry c.toNat counts) cs

/-- src/main.rs:64-86: the loop over the lines; `read_line` fails if the line is not UTF-8 (the line
that is printed for every billion characters is left out). -/
def countLines (s : CharCounts) : List Bytes → R CharCounts
  | [] => .ok s
  | l :: ls =>
    match utf8Decode l with
    | none => .error .panic
    | some line => do
      let (low, counts) ← countLine s.low s.counts line
      countLines ⟨s.total + line.length, low, counts⟩ ls

/-- What `count_chars` prints: the total, the lines for characters below 256 (character and count), and
the number of the character reported as maximum. -/
structure CharReport where
  total : Nat
  printed : List (Nat × Nat)
  maxChar : Nat

/-- src/main.rs:95-100: the loop over the keys. -/
def maxKey (keys : List Nat) : Nat := keys.foldl (fun m c => if c > m then c else m) 0

/-- src/main.rs:54-103 `count_chars`.  `order` is the order in which the hash map lists its keys. -/
def countChars (order : List Nat → List Nat) (file : Bytes) : R CharReport := do
  let s ← countLines ⟨0, List.replicate 256 0, []⟩ (splitLines file)
  .ok {
    total := s.total
    printed := (s.low.zipIdx.filter (fun e => decide (e.1 > 0))).map (fun e => (e.2, e.1))
    maxChar := maxKey (order (s.counts.map Prod.fst)) }

/-! ### Commands on token sets -/

/-- What the commands depend on besides their arguments: Unicode tables, the
number of processors, and how an `f64` quotient is written. -/
structure Machine where
  db : CharTables
  nthreads : Nat
  ratio : Nat → Nat → Json

/-- `BufRead::lines`: a line without its `\n` or `\r\n`. -/
def chomp (line : Text) : Text :=
  if line.getLast? = some '\n' then
    (if line.dropLast.getLast? = some '\r' then line.dropLast.dropLast else line.dropLast)
  else line

/-- src/processing.rs:135-140: the loop of `process_file` on the lines of a file, as bytes.  What has been
written, and whether the result is `Ok`: a line that is not valid UTF-8 is an error, and what was written
before it stays (the `BufWriter` is flushed when it is dropped). -/
def processBytesLoop (db : CharTables) (written : Bytes) : List Bytes → R (Bytes × Bool)
  | [] => .ok (written, true)
  | l :: ls =>
    match utf8Decode l with
    | none => .ok (written, false)
    | some t => do
      let processed ← Processing.process db (chomp t)
      processBytesLoop db (written ++ utf8Encode processed ++ [10]) ls

/-- src/processing.rs:131-143 `process_file`, on the bytes of a file. -/
def processBytes (db : CharTables) (file : Bytes) : R (Bytes × Bool) :=
  processBytesLoop db [] (splitLines file)

/-- src/main.rs:27-45 `maybe_process_file`: the contents of the file to be used. -/
def maybeProcessFile (m : Machine) (raw : Bytes) (processed : Option Bytes) (p : Processing) : R Bytes :=
  match processed, p with
  | _, .raw => .ok raw
  | some f, .capsWords => .ok f
  | none, .capsWords => do
    let (out, ok) ← processBytes m.db raw
    if ok then .ok out else .error .unwrapNone

/-- src/main.rs:144-149 `save_tokens` and 138-141: name and contents of the file written. -/
def statsFile (m : Machine) (st : TokenStats) : R (Text × Text) := do
  let v ← st.toJson m.ratio
  .ok (st.tokenSet.name ++ ".json".toList, v.render)

/-- `tokenize_file` of a whole file through a `FileSampler` with samples of 16 MiB (src/main.rs:128-136
and 157, 175; `Optimizer::get_stats`, src/optimize.rs:428-430).  The operating system decides how many
bytes each read returns. -/
inductive Tokenized (m : Machine) (file : Bytes) (ts : TokenSet) (n : Option Nat) :
    R TokenStats → Prop where
  | ok {short sd st} (hs : fileSampler file (1 <<< 24) short = .ok sd)
      (ht : TokenizeFile ts sd n m.nthreads st) : Tokenized m file ts n (.ok st)
  | sampler {short e} (hs : fileSampler file (1 <<< 24) short = .error e) :
      Tokenized m file ts n (.error e)
  | tokenizer {short sd} (hs : fileSampler file (1 <<< 24) short = .ok sd)
      (ht : TokenizeFails ts ⟨sd, n, m.nthreads⟩) : Tokenized m file ts n (.error .panic)

/-- src/main.rs:115-142 `load_save_tokens`, given the JSON value of the input file: the file written. -/
inductive ConvertCommand (m : Machine) (raw : Bytes) (processed : Option Bytes) (input : Json) :
    R (Text × Text) → Prop where
  | load {e} (h : TokenSet.fromJson input = .error e) : ConvertCommand m raw processed input (.error e)
  | process {ts e} (h1 : TokenSet.fromJson input = .ok ts)
      (h2 : maybeProcessFile m raw processed ts.processing = .error e) :
      ConvertCommand m raw processed input (.error e)
  | tokenize {ts data e} (h1 : TokenSet.fromJson input = .ok ts)
      (h2 : maybeProcessFile m raw processed ts.processing = .ok data)
      (h3 : Tokenized m data ts (some raw.length) (.error e)) :
      ConvertCommand m raw processed input (.error e)
  | write {ts data st} (h1 : TokenSet.fromJson input = .ok ts)
      (h2 : maybeProcessFile m raw processed ts.processing = .ok data)
      (h3 : Tokenized m data ts (some raw.length) (.ok st)) :
      ConvertCommand m raw processed input (statsFile m st)

/-- The surroundings of an optimization with a `MemorySampler` of chunks of 1 MiB. -/
def memoryEnv (m : Machine) (data : Bytes) (n : Option Nat) : R Env := do
  let sd ← memorySampler ⟨data, 1 <<< 20⟩
  .ok ⟨sd, n, m.nthreads⟩

/-- src/main.rs:164: the surroundings of one round of `optimize_with_increasing_data`. -/
def sampleEnv (m : Machine) (file : Bytes) (size : Nat) (n : Option Nat) : R Env := do
  let s ← sampleFromFile file size (1 <<< 20)
  memoryEnv m s.data n

/-- src/stats2.rs:49-51 `bytes_per_token`. -/
def bytesPerToken (st : TokenStats) : F64 := (F64.ofNat st.scannedBytes).div (F64.ofNat st.totalTokens)

/-- src/main.rs:182-184: the relative difference of the two ratios is less than 0.005. -/
def closeEnough (st full : TokenStats) : Bool :=
  ((((bytesPerToken st).sub (bytesPerToken full)).abs).div (bytesPerToken full)).lt
    (.fin (round53 (5 / 1000)))

/-- src/main.rs:151-197 `optimize_with_increasing_data`, from the head of the loop: `size` and
`tokenset` are the loop variables; the result, and the files written by the optimizer. -/
inductive Increasing (m : Machine) (file : Bytes) (ntokens : Nat) (p : Processing) (ty : TokenType)
    (n : Option Nat) : Nat → Option TokenSet → R TokenStats → List (Text × Text) → Prop where
  | exhausted {size ts} (h : ¬ size < file.length) :
      Increasing m file ntokens p ty n size ts (.error .unwrapNone) []
  | sample {size ts e} (h : size < file.length) (hs : sampleEnv m file size n = .error e) :
      Increasing m file ntokens p ty n size ts (.error e) []
  | before {size ts env} (h : size < file.length) (hs : sampleEnv m file size n = .ok env)
      (hf : TokenizeFails ts env) : Increasing m file ntokens p ty n size (some ts) (.error .panic) []
  | optimize {size ts env e w} (h : size < file.length) (hs : sampleEnv m file size n = .ok env)
      (hb : ∀ t, ts = some t → ∃ st, TokenizeFile t env.sampler n m.nthreads st)
      (ho : OptimizeTokenset env ntokens p ty ts (.error e) w) :
      Increasing m file ntokens p ty n size ts (.error e) w.saved
  | full {size ts env st w e} (h : size < file.length) (hs : sampleEnv m file size n = .ok env)
      (hb : ∀ t, ts = some t → ∃ st, TokenizeFile t env.sampler n m.nthreads st)
      (ho : OptimizeTokenset env ntokens p ty ts (.ok st) w)
      (hf : Tokenized m file st.tokenSet n (.error e)) :
      Increasing m file ntokens p ty n size ts (.error e) w.saved
  | stop {size ts env st w st'} (h : size < file.length) (hs : sampleEnv m file size n = .ok env)
      (hb : ∀ t, ts = some t → ∃ st, TokenizeFile t env.sampler n m.nthreads st)
      (ho : OptimizeTokenset env ntokens p ty ts (.ok st) w)
      (hf : Tokenized m file st.tokenSet n (.ok st'))
      (hstop : size > 1 <<< 24 ∧ closeEnough st st' = true) :
      Increasing m file ntokens p ty n size ts (.ok st') w.saved
  | again {size ts env st w st' r saved} (h : size < file.length)
      (hs : sampleEnv m file size n = .ok env)
      (hb : ∀ t, ts = some t → ∃ st, TokenizeFile t env.sampler n m.nthreads st)
      (ho : OptimizeTokenset env ntokens p ty ts (.ok st) w)
      (hf : Tokenized m file st.tokenSet n (.ok st'))
      (hstop : ¬ (size > 1 <<< 24 ∧ closeEnough st st' = true))
      (hr : Increasing m file ntokens p ty n (size * 2) (some st.tokenSet) r saved) :
      Increasing m file ntokens p ty n size ts r (w.saved ++ saved)

/-- src/main.rs:234-243: the statistics that `optimize` saves, with the files written on the way.  A
`FileSampler` that is iterated many times is taken to read full buffers, so that it delivers the same
samples every time. -/
inductive Optimized (m : Machine) (data : Bytes) (ntokens : Nat) (p : Processing) (ty : TokenType)
    (rawSize : Nat) (input : Option TokenSet) : Option Nat → R TokenStats → List (Text × Text) → Prop where
  | increasing {size r saved} (h : Increasing m data ntokens p ty (some rawSize) size input r saved) :
      Optimized m data ntokens p ty rawSize input (some size) r saved
  | memory {env r w} (hsize : rawSize < 1 <<< 34) (he : memoryEnv m data (some rawSize) = .ok env)
      (h : OptimizeTokenset env ntokens p ty input r w) :
      Optimized m data ntokens p ty rawSize input none r w.saved
  | memoryFail {e} (hsize : rawSize < 1 <<< 34) (he : memoryEnv m data (some rawSize) = .error e) :
      Optimized m data ntokens p ty rawSize input none (.error e) []
  | file {sd r w} (hsize : ¬ rawSize < 1 <<< 34)
      (he : fileSampler data (1 <<< 24) (fun _ => 1 <<< 24) = .ok sd)
      (h : OptimizeTokenset ⟨sd, some rawSize, m.nthreads⟩ ntokens p ty input r w) :
      Optimized m data ntokens p ty rawSize input none r w.saved
  | fileFail {e} (hsize : ¬ rawSize < 1 <<< 34)
      (he : fileSampler data (1 <<< 24) (fun _ => 1 <<< 24) = .error e) :
      Optimized m data ntokens p ty rawSize input none (.error e) []

/-- src/main.rs:214-219: the input token set. -/
def readInput : Option Json → R (Option TokenSet)
  | none => .ok none
  | some v => do
    let ts ← TokenSet.fromJson v
    .ok (some ts)

/-- src/main.rs:199-246 `optimize`, given the JSON value of the input token set: all files written, in
order. -/
inductive OptimizeCommand (m : Machine) (ntokens : Nat) (raw : Bytes) (processed : Option Bytes)
    (p : Processing) (ty : TokenType) (input : Option Json) (minSize : Option Nat) :
    R (List (Text × Text)) → Prop where
  | process {e} (h : maybeProcessFile m raw processed p = .error e) :
      OptimizeCommand m ntokens raw processed p ty input minSize (.error e)
  | load {data e} (h1 : maybeProcessFile m raw processed p = .ok data) (h2 : readInput input = .error e) :
      OptimizeCommand m ntokens raw processed p ty input minSize (.error e)
  | optimize {data ts e saved} (h1 : maybeProcessFile m raw processed p = .ok data)
      (h2 : readInput input = .ok ts)
      (h3 : Optimized m data ntokens p ty raw.length ts minSize (.error e) saved) :
      OptimizeCommand m ntokens raw processed p ty input minSize (.error e)
  | saveFail {data ts st saved e} (h1 : maybeProcessFile m raw processed p = .ok data)
      (h2 : readInput input = .ok ts)
      (h3 : Optimized m data ntokens p ty raw.length ts minSize (.ok st) saved)
      (h4 : statsFile m st = .error e) :
      OptimizeCommand m ntokens raw processed p ty input minSize (.error e)
  | write {data ts st saved f} (h1 : maybeProcessFile m raw processed p = .ok data)
      (h2 : readInput input = .ok ts)
      (h3 : Optimized m data ntokens p ty raw.length ts minSize (.ok st) saved)
      (h4 : statsFile m st = .ok f) :
      OptimizeCommand m ntokens raw processed p ty input minSize (.ok (saved ++ [f]))

end Main
end Tokens
