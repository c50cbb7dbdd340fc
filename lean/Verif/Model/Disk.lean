import Verif.Model.Main
import Verif.Model.JsonRead

/-!
The program as a whole: commands that read and write files.

Simplified: a file system is the contents of the files and the paths at which a file can be created; the
files are not changed by anyone else; reading does not fail for a file that exists; the data files are
not among the files that are written while they are being read (except by `process`, where it is
modelled).
-/

namespace Tokens
namespace Disk
open Main Input

/-- The files: contents by path, and the paths at which a file can be created or overwritten (the
directory exists, and so on). -/
structure Files where
  read : Text → Option Bytes
  creatable : Text → Bool

/-- The files after a file has been created or replaced. -/
def Files.write (d : Files) (path : Text) (b : Bytes) : Files :=
  { d with read := fun q => if q = path then some b else d.read q }

/-- `Path::join` on Unix, for a name that is not absolute (src/main.rs:138, 145; src/optimize.rs:288). -/
def joinPath (dir name : Text) : Text :=
  if dir = [] ∨ dir.getLast? = some '/' then dir ++ name else dir ++ '/' :: name

/-- The program may be stopped at any point while it writes the files `ws` one after the other, each with
`std::fs::write` (src/main.rs:141, 148; src/optimize.rs:291) or by `File::create` and writing through it
(src/main.rs:49-51): the file is created or cut to nothing, then bytes are appended.  These are the
files it may leave. -/
inductive Stopped : List (Text × Bytes) → Files → Files → Prop where
  | before {ws d} : Stopped ws d d
  | during {path b ws d part rest} (h : part ++ rest = b) : Stopped ((path, b) :: ws) d (d.write path part)
  | after {path b ws d d'} (h : Stopped ws (d.write path b) d') : Stopped ((path, b) :: ws) d d'

/-- The files when all has been written. -/
def writeAll (d : Files) : List (Text × Bytes) → Files
  | [] => d
  | (path, b) :: ws => writeAll (d.write path b) ws

/-- src/main.rs:253-311 `enum Command`. -/
inductive Command where
  | process (data output : Text)
  | countChars (data : Text)
  | convert (data : Text) (processed : Option Text) (inputTokens tokensDir : Text)
  | optimize (data : Text) (processed : Option Text) (tokensDir : Text) (p : Processing) (ty : TokenType)
      (ntokens : Nat) (inputTokens : Option Text) (minSize : Option Nat)

/-- `File::open(path).unwrap()` and reading it. -/
def openFile (d : Files) (path : Text) : R Bytes := unwrapR (d.read path)

/-- src/main.rs:105-113 `read_token_set`: the JSON value in the file. -/
def readJson (d : Files) (path : Text) : R Json := do
  let b ← openFile d path
  unwrapR (JsonRead.parseBytes b)

/-- src/main.rs:34-35 and the opening of the file later: a processed file is used only for processed
types. -/
def openProcessed (d : Files) (processed : Option Text) (p : Processing) : R (Option Bytes) :=
  match processed, p with
  | some f, .capsWords => do
    let b ← openFile d f
    .ok (some b)
  | _, _ => .ok none

/-- src/main.rs:214-219: the optional input token set. -/
def openInput (d : Files) : Option Text → R (Option Json)
  | none => .ok none
  | some f => do
    let v ← readJson d f
    .ok (some v)

/-- The files written into a directory. -/
def inDir (dir : Text) (fs : List (Text × Text)) : List (Text × Bytes) :=
  fs.map (fun f => (joinPath dir f.1, utf8Encode f.2))

/-- Writing files that cannot be created is a panic (`unwrap`): what has been written, and the result. -/
def attempt (d : Files) (ws : List (Text × Bytes)) (r : R Unit) : R Unit × List (Text × Bytes) :=
  if ws.all (fun w => d.creatable w.1) then (r, ws)
  else (.error .unwrapNone, ws.takeWhile (fun w => d.creatable w.1))

/-- src/main.rs:313-348 `main`: a command may end with this result, having written these files. -/
inductive Exec (m : Machine) (d : Files) : Command → R Unit × List (Text × Bytes) → Prop where
  /-- src/main.rs:48 -/
  | processOpen {data output} (h : d.read data = none) :
      Exec m d (.process data output) (.error .unwrapNone, [])
  /-- src/main.rs:47-52 `process`.  The output is cut to nothing before the input is read. -/
  | process {data output file out ok} (h : d.read data ≠ none)
      (hf : (d.write output []).read data = some file) (hp : processBytes m.db file = .ok (out, ok)) :
      Exec m d (.process data output)
        (attempt d [(output, out)] (if ok then .ok () else .error .unwrapNone))
  /-- the processing itself panics -/
  | processPanic {data output file part e} (h : d.read data ≠ none)
      (hf : (d.write output []).read data = some file) (hp : processBytes m.db file = .error e) :
      Exec m d (.process data output) (attempt d [(output, part)] (.error e))
  /-- src/main.rs:54-103 `count_chars` -/
  | countChars {data r} (order : List Nat → List Nat) (ho : ∀ l, (order l).Perm l)
      (h : (openFile d data >>= countChars order) = r) :
      Exec m d (.countChars data) (r.map (fun _ => ()), [])
  /-- src/main.rs:115-130: opening the files of `load_save_tokens` -/
  | convertOpen {data processed inputTokens tokensDir e}
      (h : readJson d inputTokens = .error e ∨ openFile d data = .error e ∨
        ∃ v ts, readJson d inputTokens = .ok v ∧ TokenSet.fromJson v = .ok ts ∧
          openProcessed d processed ts.processing = .error e) :
      Exec m d (.convert data processed inputTokens tokensDir) (.error e, [])
  /-- src/main.rs:115-142 `load_save_tokens`, failing -/
  | convertFail {data processed inputTokens tokensDir v raw file e} (hv : readJson d inputTokens = .ok v)
      (hr : openFile d data = .ok raw)
      (hp : ∀ ts, TokenSet.fromJson v = .ok ts → openProcessed d processed ts.processing = .ok file)
      (h : ConvertCommand m raw file v (.error e)) :
      Exec m d (.convert data processed inputTokens tokensDir) (.error e, [])
  /-- src/main.rs:115-142 `load_save_tokens` -/
  | convert {data processed inputTokens tokensDir v raw file f} (hv : readJson d inputTokens = .ok v)
      (hr : openFile d data = .ok raw)
      (hp : ∀ ts, TokenSet.fromJson v = .ok ts → openProcessed d processed ts.processing = .ok file)
      (h : ConvertCommand m raw file v (.ok f)) :
      Exec m d (.convert data processed inputTokens tokensDir) (attempt d (inDir tokensDir [f]) (.ok ()))
  /-- src/main.rs:211-219: opening the files of `optimize` -/
  | optimizeOpen {data processed tokensDir p ty ntokens inputTokens minSize e}
      (h : openFile d data = .error e ∨ openProcessed d processed p = .error e ∨
        openInput d inputTokens = .error e) :
      Exec m d (.optimize data processed tokensDir p ty ntokens inputTokens minSize) (.error e, [])
  /-- src/main.rs:211-219: preparing fails -/
  | optimizePrepare {data processed tokensDir p ty ntokens inputTokens minSize raw file v e}
      (hr : openFile d data = .ok raw) (hp : openProcessed d processed p = .ok file)
      (hi : openInput d inputTokens = .ok v)
      (h : maybeProcessFile m raw file p = .error e ∨ readInput v = .error e) :
      Exec m d (.optimize data processed tokensDir p ty ntokens inputTokens minSize) (.error e, [])
  /-- src/main.rs:221-244: optimizing, or the text of the last file, fails -/
  | optimizeFail {data processed tokensDir p ty ntokens inputTokens minSize raw file v bytes ts r saved e}
      (hr : openFile d data = .ok raw) (hp : openProcessed d processed p = .ok file)
      (hi : openInput d inputTokens = .ok v) (hd : maybeProcessFile m raw file p = .ok bytes)
      (ht : readInput v = .ok ts) (ho : Optimized m bytes ntokens p ty raw.length ts minSize r saved)
      (h : r >>= statsFile m = .error e) :
      Exec m d (.optimize data processed tokensDir p ty ntokens inputTokens minSize)
        (attempt d (inDir tokensDir saved) (.error e))
  /-- src/main.rs:199-246 `optimize` -/
  | optimize {data processed tokensDir p ty ntokens inputTokens minSize raw file v bytes ts st saved f}
      (hr : openFile d data = .ok raw) (hp : openProcessed d processed p = .ok file)
      (hi : openInput d inputTokens = .ok v) (hd : maybeProcessFile m raw file p = .ok bytes)
      (ht : readInput v = .ok ts) (ho : Optimized m bytes ntokens p ty raw.length ts minSize (.ok st) saved)
      (h : statsFile m st = .ok f) :
      Exec m d (.optimize data processed tokensDir p ty ntokens inputTokens minSize)
        (attempt d (inDir tokensDir (saved ++ [f])) (.ok ()))

end Disk
end Tokens
