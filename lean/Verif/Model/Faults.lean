import Verif.Model.Reading
import Verif.Model.Running

/-!
The commands of the program on devices that deliver and take bytes as they like, and may fail at any
moment: reading as in `Verif/Model/Reading.lean`, writing as in `Verif/Model/Writing.lean`.

Simplified: a command may fail at any moment for a reason that is not modelled in detail (a file that
cannot be opened, a failing read, a sample that is not text, a panic); what matters is what it has written
by then.  A `FileSampler` that is iterated many times is taken to read full buffers, or to fail.  The files
are not changed by anyone else.
-/

namespace Tokens
namespace Faults
open Main Input Disk Batch Optimize

/-- `std::fs::write(..).unwrap()` for one file after the other (src/main.rs:141, 148; src/optimize.rs:291):
the files to be written, what is in the files that have been created, and whether all went well. -/
inductive WriteFiles (d : Files) : List (Text × Bytes) → List (Text × Bytes) → Bool → Prop where
  | done : WriteFiles d [] [] true
  | ok {path b ws out left ok} (hc : d.creatable path = true) (h : Writing.WriteFile b out (.ok ()))
      (hw : WriteFiles d ws left ok) : WriteFiles d ((path, b) :: ws) ((path, out) :: left) ok
  /-- the file is created, but writing fails -/
  | fail {path b ws out e} (h : Writing.WriteFile b out (.error e)) :
      WriteFiles d ((path, b) :: ws) [(path, out)] false
  /-- the file is not created -/
  | create {path b ws} : WriteFiles d ((path, b) :: ws) [] false

/-- src/main.rs:27-45 `maybe_process_file`, if it does not fail: the bytes in the file to be used. -/
inductive Prepare (m : Machine) (d : Files) (raw : Bytes) : Option Text → Processing → Bytes → Prop where
  | raw {processed} : Prepare m d raw processed .raw raw
  | given {f bytes} (h : d.read f = some bytes) : Prepare m d raw (some f) .capsWords bytes
  | temp {out ok} (h : Reading.Process m.db raw out (.ok ()) ok) : Prepare m d raw none .capsWords out

/-- `tokenize_file` of a whole file through a `FileSampler`, as `Main.Tokenized`, if it does not fail. -/
inductive Tokenized (m : Machine) (file : Bytes) (ts : TokenSet) (n : Option Nat) (st : TokenStats) : Prop where
  | ok {reads sd} (hs : Reading.fileSampler file (1 <<< 24) reads = .ok sd)
      (ht : TokenizeFile ts sd n m.nthreads st) : Tokenized m file ts n st

/-- src/main.rs:164: the surroundings of one round of `optimize_with_increasing_data`, if it does not fail. -/
inductive SampleEnv (m : Machine) (file : Bytes) (size : Nat) (n : Option Nat) : Env → Prop where
  | ok {s sd ok} (hs : Reading.Sample file size (1 <<< 20) (.ok s) ok) (hm : memorySampler s = .ok sd) :
      SampleEnv m file size n ⟨sd, n, m.nthreads⟩

/-- src/main.rs:151-197 `optimize_with_increasing_data` from the head of the loop, as `Main.Increasing` and
`Main.PartIncreasing`: the result if it has returned, and the files written so far. -/
inductive Increasing (m : Machine) (file : Bytes) (ntokens : Nat) (p : Processing) (ty : TokenType)
    (n : Option Nat) : Nat → Option TokenSet → Option TokenStats → List (Text × Text) → Prop where
  | head {size ts} : Increasing m file ntokens p ty n size ts none []
  | optimize {size ts env w} (h : size < file.length) (hs : SampleEnv m file size n env)
      (hb : ∀ t, ts = some t → ∃ st, TokenizeFile t env.sampler n m.nthreads st)
      (ho : PartTokenset env ntokens p ty ts w) : Increasing m file ntokens p ty n size ts none w.saved
  | after {size ts env st w} (h : size < file.length) (hs : SampleEnv m file size n env)
      (hb : ∀ t, ts = some t → ∃ st, TokenizeFile t env.sampler n m.nthreads st)
      (ho : OptimizeTokenset env ntokens p ty ts (.ok st) w) :
      Increasing m file ntokens p ty n size ts none w.saved
  | stop {size ts env st w st'} (h : size < file.length) (hs : SampleEnv m file size n env)
      (hb : ∀ t, ts = some t → ∃ st, TokenizeFile t env.sampler n m.nthreads st)
      (ho : OptimizeTokenset env ntokens p ty ts (.ok st) w) (hf : Tokenized m file st.tokenSet n st')
      (hstop : size > 1 <<< 24 ∧ closeEnough st st' = true) :
      Increasing m file ntokens p ty n size ts (some st') w.saved
  | again {size ts env st w st' r saved} (h : size < file.length) (hs : SampleEnv m file size n env)
      (hb : ∀ t, ts = some t → ∃ st, TokenizeFile t env.sampler n m.nthreads st)
      (ho : OptimizeTokenset env ntokens p ty ts (.ok st) w) (hf : Tokenized m file st.tokenSet n st')
      (hstop : ¬ (size > 1 <<< 24 ∧ closeEnough st st' = true))
      (hr : Increasing m file ntokens p ty n (size * 2) (some st.tokenSet) r saved) :
      Increasing m file ntokens p ty n size ts r (w.saved ++ saved)

/-- src/main.rs:221-243: the surroundings of the optimization without `--min-data-size`, if preparing them
does not fail. -/
inductive WholeEnv (m : Machine) (data : Bytes) (rawSize : Nat) : Env → Prop where
  | memory {s sd ok} (hsize : rawSize < 1 <<< 34) (hf : Reading.FromFile data (1 <<< 20) (.ok s) ok)
      (hm : memorySampler s = .ok sd) : WholeEnv m data rawSize ⟨sd, some rawSize, m.nthreads⟩
  | file {reads sd} (hsize : ¬ rawSize < 1 <<< 34) (hr : ∀ i, reads i = none ∨ reads i = some (1 <<< 24))
      (hf : Reading.fileSampler data (1 <<< 24) reads = .ok sd) :
      WholeEnv m data rawSize ⟨sd, some rawSize, m.nthreads⟩

/-- src/main.rs:234-243, as `Main.Optimized` and `Main.PartOptimized`: the result if there is one, and the
files written so far. -/
inductive Optimized (m : Machine) (data : Bytes) (ntokens : Nat) (p : Processing) (ty : TokenType)
    (rawSize : Nat) (input : Option TokenSet) :
    Option Nat → Option TokenStats → List (Text × Text) → Prop where
  | nothing {minSize} : Optimized m data ntokens p ty rawSize input minSize none []
  | increasing {size r saved} (h : Increasing m data ntokens p ty (some rawSize) size input r saved) :
      Optimized m data ntokens p ty rawSize input (some size) r saved
  | part {env w} (he : WholeEnv m data rawSize env) (h : PartTokenset env ntokens p ty input w) :
      Optimized m data ntokens p ty rawSize input none none w.saved
  | whole {env st w} (he : WholeEnv m data rawSize env)
      (h : OptimizeTokenset env ntokens p ty input (.ok st) w) :
      Optimized m data ntokens p ty rawSize input none (some st) w.saved

/-- src/main.rs:214-219: the input token set, if it can be read. -/
inductive ReadInput (d : Files) : Option Text → Option TokenSet → Prop where
  | none : ReadInput d none none
  | some {f b v ok ts} (hf : d.read f = some b) (hv : Reading.FromReader b (.ok v) ok)
      (ht : TokenSet.fromJson v = .ok ts) : ReadInput d (some f) (some ts)

/-- src/main.rs:313-348 `main`, as `Disk.Exec`: a command may end with this result, having left these bytes
in the files it has created, in this order. -/
inductive Exec (m : Machine) (d : Files) : Command → R Unit → List (Text × Bytes) → Prop where
  /-- any command fails before it has written anything -/
  | early {cmd e} : Exec m d cmd (.error e) []
  /-- src/main.rs:47-52 `process`.  The output is cut to nothing before the input is read. -/
  | process {data output file out r ok} (h : d.read data ≠ none) (hc : d.creatable output = true)
      (hf : (d.write output []).read data = some file) (hp : Reading.Process m.db file out r ok) :
      Exec m d (.process data output) r [(output, out)]
  /-- src/main.rs:54-103 `count_chars` -/
  | countChars {data file r ok} (order : List Nat → List Nat) (ho : ∀ l, (order l).Perm l)
      (hf : d.read data = some file) (h : Reading.Count order file r ok) :
      Exec m d (.countChars data) (r.map (fun _ => ())) []
  /-- src/main.rs:115-142 `load_save_tokens`, up to the writing of the file; that may fail -/
  | convert {data processed inputTokens tokensDir raw ts bytes st f left ok e}
      (hi : ReadInput d (some inputTokens) (some ts)) (hr : d.read data = some raw)
      (hp : Prepare m d raw processed ts.processing bytes)
      (ht : Tokenized m bytes ts (some raw.length) st) (hs : statsFile m st = .ok f)
      (hw : WriteFiles d (inDir tokensDir [f]) left ok) :
      Exec m d (.convert data processed inputTokens tokensDir) (if ok then .ok () else .error e) left
  /-- src/main.rs:199-243 `optimize`: a failure while it is at work, or while one of the files is written -/
  | optimizeFail {data processed tokensDir p ty ntokens inputTokens minSize raw bytes ts r saved left ok e}
      (hr : d.read data = some raw) (hp : Prepare m d raw processed p bytes) (hi : ReadInput d inputTokens ts)
      (ho : Optimized m bytes ntokens p ty raw.length ts minSize r saved)
      (hw : WriteFiles d (inDir tokensDir saved) left ok) :
      Exec m d (.optimize data processed tokensDir p ty ntokens inputTokens minSize) (.error e) left
  /-- src/main.rs:199-246 `optimize`, up to the last file; one of the writes may fail -/
  | optimize {data processed tokensDir p ty ntokens inputTokens minSize raw bytes ts st saved f left ok e}
      (hr : d.read data = some raw) (hp : Prepare m d raw processed p bytes) (hi : ReadInput d inputTokens ts)
      (ho : Optimized m bytes ntokens p ty raw.length ts minSize (some st) saved) (hs : statsFile m st = .ok f)
      (hw : WriteFiles d (inDir tokensDir (saved ++ [f])) left ok) :
      Exec m d (.optimize data processed tokensDir p ty ntokens inputTokens minSize)
        (if ok then .ok () else .error e) left

end Faults
end Tokens
