import Verif.Model.Main

/-!
Writing to a device that may be full, or fail, at any moment.

`File::write` may write fewer bytes than it is given, be interrupted, or fail; the system decides.  The
relations below say what may then happen.  Simplified: reading the input does not fail; a failing
`write` of the system has written nothing.
-/

namespace Tokens
namespace Writing

/-- `Write::write_all` of a file, and the loop of `BufWriter::flush_buf` (both in the Rust standard
library): `write` until nothing is left.  `PutAll b written left ok`: of `b`, the bytes `written` have
been written and the bytes `left` have not; `ok` tells whether the result is `Ok`. -/
inductive PutAll : Bytes → Bytes → Bytes → Bool → Prop where
  /-- nothing left -/
  | done : PutAll [] [] [] true
  /-- `write` returns `Ok(n)` with `n > 0` -/
  | some {b n written left ok} (hn : 0 < n) (hle : n ≤ b.length) (h : PutAll (b.drop n) written left ok) :
      PutAll b (b.take n ++ written) left ok
  /-- `write` returns `ErrorKind::Interrupted` -/
  | interrupted {b written left ok} (hb : b ≠ []) (h : PutAll b written left ok) : PutAll b written left ok
  /-- `write` returns another error, or `Ok(0)` -/
  | fail {b} (hb : b ≠ []) : PutAll b [] b false

/-- The size of the buffer of a `BufWriter` (`DEFAULT_BUF_SIZE` in the Rust standard library). -/
def capacity : Nat := 8192

/-- A `BufWriter`: what is in the file, and what is in the buffer. -/
structure Writer where
  file : Bytes
  buf : Bytes

/-- The first part of `BufWriter::write_all`: the buffer is written out if the bytes do not fit. -/
inductive MakeRoom (s : Writer) (b : Bytes) : Writer → Bool → Prop where
  | fits (h : b.length ≤ capacity - s.buf.length) : MakeRoom s b s true
  | flush {written left ok} (h : b.length > capacity - s.buf.length) (hp : PutAll s.buf written left ok) :
      MakeRoom s b ⟨s.file ++ written, left⟩ ok

/-- `BufWriter::write_all` (in the Rust standard library), and `BufWriter::write` of one byte, which does
the same.  A long piece is written directly. -/
inductive WriteAll (s : Writer) (b : Bytes) : Writer → Bool → Prop where
  /-- there is room -/
  | copy (h : b.length < capacity - s.buf.length) : WriteAll s b ⟨s.file, s.buf ++ b⟩ true
  /-- the buffer cannot be written out -/
  | stuck {s'} (h : ¬ b.length < capacity - s.buf.length) (hm : MakeRoom s b s' false) : WriteAll s b s' false
  /-- there is room now -/
  | buffer {s'} (h : ¬ b.length < capacity - s.buf.length) (hm : MakeRoom s b s' true)
      (hc : b.length < capacity) : WriteAll s b ⟨s'.file, s'.buf ++ b⟩ true
  /-- directly into the file -/
  | direct {s' written left ok} (h : ¬ b.length < capacity - s.buf.length) (hm : MakeRoom s b s' true)
      (hc : ¬ b.length < capacity) (hp : PutAll b written left ok) :
      WriteAll s b ⟨s'.file ++ written, s'.buf⟩ ok

/-- `Drop` of a `BufWriter`: the buffer is written out; an error is ignored.  The file afterwards. -/
inductive Dropped (s : Writer) : Bytes → Prop where
  | flush {written left ok} (hp : PutAll s.buf written left ok) : Dropped s (s.file ++ written)

/-- src/processing.rs:135-142: the loop of `process_file` over the lines of the input.  `Loop db ls s s' r`:
it may end with the writer `s'` and the result `r`; the error for a line that is not text, or that cannot
be written, is `unwrapNone` (all errors of `process_file` end in an `unwrap`). -/
inductive Loop (db : CharTables) : List Bytes → Writer → Writer → R Unit → Prop where
  | done {s} : Loop db [] s s (.ok ())
  /-- src/processing.rs:136 -/
  | badLine {l ls s} (h : utf8Decode l = none) : Loop db (l :: ls) s s (.error .unwrapNone)
  /-- src/processing.rs:137 -/
  | panic {l ls s t e} (h : utf8Decode l = some t) (hp : Processing.process db (Main.chomp t) = .error e) :
      Loop db (l :: ls) s s (.error e)
  /-- src/processing.rs:138 -/
  | failText {l ls s s' t p} (h : utf8Decode l = some t) (hp : Processing.process db (Main.chomp t) = .ok p)
      (hw : WriteAll s (utf8Encode p) s' false) : Loop db (l :: ls) s s' (.error .unwrapNone)
  /-- src/processing.rs:139 -/
  | failNewline {l ls s s' s'' t p} (h : utf8Decode l = some t)
      (hp : Processing.process db (Main.chomp t) = .ok p) (hw : WriteAll s (utf8Encode p) s' true)
      (hn : WriteAll s' [10] s'' false) : Loop db (l :: ls) s s'' (.error .unwrapNone)
  | line {l ls s s' s'' s3 r t p} (h : utf8Decode l = some t)
      (hp : Processing.process db (Main.chomp t) = .ok p) (hw : WriteAll s (utf8Encode p) s' true)
      (hn : WriteAll s' [10] s'' true) (hl : Loop db ls s'' s3 r) : Loop db (l :: ls) s s3 r

/-- src/processing.rs:131-143 `process_file` into a file that is empty at first (src/main.rs:49-51 and
38-40), with `unwrap` at the end: `ProcessTo db input out r` if it may leave `out` in the file and end
with the result `r`. -/
inductive ProcessTo (db : CharTables) (input : Bytes) : Bytes → R Unit → Prop where
  | run {s r out} (h : Loop db (Input.splitLines input) ⟨[], []⟩ s r) (hd : Dropped s out) :
      ProcessTo db input out r

/-- `std::fs::write(path, contents).unwrap()` (src/main.rs:141, 148; src/optimize.rs:291): `WriteFile b out r`
if it may leave `out` in the file and end with the result `r`. -/
inductive WriteFile (b : Bytes) : Bytes → R Unit → Prop where
  | ok {written left} (h : PutAll b written left true) : WriteFile b written (.ok ())
  | fail {written left} (h : PutAll b written left false) : WriteFile b written (.error .unwrapNone)

/-- src/main.rs:27-45 `maybe_process_file` with a temporary directory on such a device: the contents of the
file that will be used. -/
inductive PrepareTo (m : Main.Machine) (raw : Bytes) : Option Bytes → Processing → R Bytes → Prop where
  | raw {processed} : PrepareTo m raw processed .raw (.ok raw)
  | given {f} : PrepareTo m raw (some f) .capsWords (.ok f)
  | temp {out} (h : ProcessTo m.db raw out (.ok ())) : PrepareTo m raw none .capsWords (.ok out)
  | tempFail {out e} (h : ProcessTo m.db raw out (.error e)) : PrepareTo m raw none .capsWords (.error e)

/-- src/main.rs:115-142 `load_save_tokens` with such a temporary directory (the token file is written as
`WriteFile` says): name and contents of the file written. -/
inductive ConvertTo (m : Main.Machine) (raw : Bytes) (processed : Option Bytes) (input : Json) :
    R (Text × Text) → Prop where
  | load {e} (h : TokenSet.fromJson input = .error e) : ConvertTo m raw processed input (.error e)
  | process {ts e} (h1 : TokenSet.fromJson input = .ok ts)
      (h2 : PrepareTo m raw processed ts.processing (.error e)) : ConvertTo m raw processed input (.error e)
  | tokenize {ts data e} (h1 : TokenSet.fromJson input = .ok ts)
      (h2 : PrepareTo m raw processed ts.processing (.ok data))
      (h3 : Main.Tokenized m data ts (some raw.length) (.error e)) : ConvertTo m raw processed input (.error e)
  | write {ts data st} (h1 : TokenSet.fromJson input = .ok ts)
      (h2 : PrepareTo m raw processed ts.processing (.ok data))
      (h3 : Main.Tokenized m data ts (some raw.length) (.ok st)) :
      ConvertTo m raw processed input (Main.statsFile m st)

/-- src/main.rs:199-246 `optimize` with such a temporary directory: all files written, in order. -/
inductive OptimizeTo (m : Main.Machine) (ntokens : Nat) (raw : Bytes) (processed : Option Bytes)
    (p : Processing) (ty : TokenType) (input : Option Json) (minSize : Option Nat) :
    R (List (Text × Text)) → Prop where
  | process {e} (h : PrepareTo m raw processed p (.error e)) :
      OptimizeTo m ntokens raw processed p ty input minSize (.error e)
  | load {data e} (h1 : PrepareTo m raw processed p (.ok data)) (h2 : Main.readInput input = .error e) :
      OptimizeTo m ntokens raw processed p ty input minSize (.error e)
  | optimize {data ts e saved} (h1 : PrepareTo m raw processed p (.ok data))
      (h2 : Main.readInput input = .ok ts)
      (h3 : Main.Optimized m data ntokens p ty raw.length ts minSize (.error e) saved) :
      OptimizeTo m ntokens raw processed p ty input minSize (.error e)
  | saveFail {data ts st saved e} (h1 : PrepareTo m raw processed p (.ok data))
      (h2 : Main.readInput input = .ok ts)
      (h3 : Main.Optimized m data ntokens p ty raw.length ts minSize (.ok st) saved)
      (h4 : Main.statsFile m st = .error e) :
      OptimizeTo m ntokens raw processed p ty input minSize (.error e)
  | write {data ts st saved f} (h1 : PrepareTo m raw processed p (.ok data))
      (h2 : Main.readInput input = .ok ts)
      (h3 : Main.Optimized m data ntokens p ty raw.length ts minSize (.ok st) saved)
      (h4 : Main.statsFile m st = .ok f) :
      OptimizeTo m ntokens raw processed p ty input minSize (.ok (saved ++ [f]))

end Writing
end Tokens
