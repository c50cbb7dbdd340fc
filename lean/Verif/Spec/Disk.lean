import Verif.Model.Disk
import Verif.Spec.Commands
import Verif.Spec.Saved
import Verif.Spec.JsonText

/-!
Specification for what the commands do to the files.
-/

namespace Tokens.Spec
open Tokens Disk

/-- The name of the file of a token set. -/
def tokenFile (n : Nat) (p : Processing) (ty : TokenType) : Text :=
  "tokens".toList ++ Nat.toDigits 10 n ++ "_".toList ++
  (match p with
    | .raw => "raw"
    | .capsWords => "capswords").toList ++ "_".toList ++
  (match ty with
    | .bits1 => "bits1"
    | .bits2 => "bits2"
    | .bits4 => "bits4"
    | .bytes => "bytes"
    | .bytesHuff => "byteshuff").toList ++ ".json".toList

/-- The path of a file in a directory; the empty path is the current directory. -/
def fileIn (dir name : Text) : Text :=
  match dir.getLast? with
  | none => name
  | some c => if c = '/' then dir ++ name else dir ++ ['/'] ++ name

/-- The files a command is supposed to write. -/
def MayWrite : Command → Text → Prop
  | .process _ output, path => path = output
  | .countChars _, _ => False
  | .convert _ _ _ dir, path => ∃ n p ty, path = fileIn dir (tokenFile n p ty)
  | .optimize _ _ dir _ _ _ _ _, path => ∃ n p ty, path = fileIn dir (tokenFile n p ty)

/-- A set that the optimizer may write or return: the tokenizer accepts it; it is sorted, losslessly
decodable, of the requested type and processing, within budget, and has the shape that can be saved. -/
structure ValidSet (ty : TokenType) (p : Processing) (ntokens : Nat) (ts : TokenSet) : Prop where
  accepted : ∃ tk, FragmentTokenizer.new ts = .ok tk
  sorted : Sorted ts
  lossless : Lossless ts
  type : ts.tokenType = ty
  processing : ts.processing = p
  budget : ts.tokens.length ≤ ntokens
  regular : Regular ts

/-- The contents of a file are JSON text for the set: reading them gives what the JSON value of the set
gives. -/
def FileOf (ts : TokenSet) (b : Bytes) : Prop :=
  ∃ v, ts.toJson = .ok v ∧ readTokenSet b = TokenSet.fromJson v

/-- What is tokenized: `raw` is in the data file, and `bytes` is the data itself (processing raw), or what
is in the processed file if one is given, or the processed text of the data file. -/
inductive DataRead (m : Main.Machine) (d : Files) (data : Text) (processed : Option Text) :
    Processing → Bytes → Bytes → Prop where
  | raw {raw} (h : d.read data = some raw) : DataRead m d data processed .raw raw raw
  | given {raw f bytes} (h : d.read data = some raw) (hp : processed = some f) (hf : d.read f = some bytes) :
      DataRead m d data processed .capsWords raw bytes
  | made {text out} (h : d.read data = some (utf8Encode text)) (hp : processed = none)
      (ho : Processing.processFile m.db text = .ok out) :
      DataRead m d data processed .capsWords (utf8Encode text) (utf8Encode out)

/-- Sizes for which every number that is saved fits into 64 bits. -/
def SmallEnough (m : Main.Machine) (d : Files) : Command → Prop
  | .optimize data processed _ p _ ntokens _ _ =>
    ntokens < 2 ^ 64 ∧ ∀ raw bytes, DataRead m d data processed p raw bytes →
      raw.length < 2 ^ 64 ∧ bytes.length < 2 ^ 54
  | .convert data processed inputTokens _ =>
    ∀ b ts raw bytes, d.read inputTokens = some b → readTokenSet b = .ok ts →
      DataRead m d data processed ts.processing raw bytes →
      raw.length < 2 ^ 64 ∧ ts.tokens.length < 2 ^ 64 ∧
      ∃ k, 1 ≤ k ∧ k * bytes.length < 2 ^ 64 ∧ ∀ q ∈ ts.sequences, q.tokens.length ≤ k
  | _ => True

/-- What the optimizer is given is what it can start with: nothing, and a size that can be asked for; or
a file, and if a set is loaded from it, the optimizer can work on that set. -/
def StartsGood (d : Files) (p : Processing) (ty : TokenType) (ntokens : Nat) : Option Text → Prop
  | none => GoodInput ty p ntokens none
  | some f => ∀ b ts, d.read f = some b → readTokenSet b = .ok ts → GoodInput ty p ntokens (some ts)

/-- What may be found at `path` in the files `d'` that are left when a program that started with the
files `d` has been stopped: the file is as before; or reading it is an error; or it is complete, and
the file of a set that `Good` says is right. -/
inductive AfterCrash (d d' : Files) (path : Text) (Good : TokenSet → Prop) : Prop where
  | same (h : d'.read path = d.read path)
  | torn {b} (h : d'.read path = some b) (hr : readTokenSet b = .error .unwrapNone)
  | saved {b ts} (h : d'.read path = some b) (hf : FileOf ts b) (hg : Good ts)

end Tokens.Spec
